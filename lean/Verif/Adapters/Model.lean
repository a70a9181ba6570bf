import Verif.Jet.Model
import Verif.NumericDiff.Model

/-!
# Cost functions made of other functions

`NormalPrior`, `ConditionedCostFunction`, `DynamicCostFunctionToFunctor` and `CostFunctionToFunctor`, and
`GradientChecker` with the cost function that `check_gradients` puts around the user's.  Doubles are reals: NaN and
infinities are not modelled.
-/
namespace Ceres.Adapters

open Ceres.Jet (Jet)
open Ceres.NumericDiff (Params)

noncomputable section

/-- `double** jacobians`: null, or an array of pointers that may be null; row major matrices. -/
abbrev Jacs := Option (ℕ → Option (ℕ → ℝ))

/-- The verdict of `Evaluate` and what it leaves in the caller's memory. -/
structure Out where
  ok : Bool
  residuals : ℕ → ℝ
  jacobians : Jacs

/-- A `CostFunction` (cost_function.h:66-144): what `Evaluate` does depends on the parameters and on nothing else but
what is in the memory of its outputs. -/
structure CostFunction where
  sizes : List ℕ
  numResiduals : ℕ
  evaluate : Params → (ℕ → ℝ) → Jacs → Out

/-! ## NormalPrior -/

/-- `NormalPrior::NormalPrior` (normal_prior.cc:41-48) for a matrix of `rows` rows and `cols` columns and a vector of
size `n`, and `NormalPrior::Evaluate` (normal_prior.cc:50-64); `none`: a `CHECK` fails. -/
def normalPrior (rows cols n : ℕ) (A : ℕ → ℕ → ℝ) (b : ℕ → ℝ) : Option CostFunction :=
  if 0 < n ∧ 0 < rows ∧ n = cols then
    some
      { sizes := [n]
        numResiduals := rows
        evaluate := fun p residuals jacobians =>
          { ok := true
            residuals := fun i => if i < rows then ∑ j ∈ Finset.range n, A i j * (p 0 j - b j) else residuals i
            jacobians :=
              match jacobians with
              | none => none
              | some js => some (Function.update js 0 ((js 0).map fun a q =>
                  if q < rows * n then A (q / n) (q % n) else a q)) } }
  else none

/-! ## ConditionedCostFunction -/

/-- `jacobian_row *= conditioner_derivative` for each block (conditioned_cost_function.cc:112-125). -/
def scaleRow (sizes : List ℕ) (r : ℕ) (d : ℝ) (js : ℕ → Option (ℕ → ℝ)) : ℕ → Option (ℕ → ℝ) := fun i =>
  if i < sizes.length then
    (js i).map fun a q =>
      if r * sizes.getD i 0 ≤ q ∧ q < r * sizes.getD i 0 + sizes.getD i 0 then a q * d else a q
  else js i

/-- Row `r` of the loop (conditioned_cost_function.cc:87-127). -/
def conditionRow (sizes : List ℕ) (g : Option CostFunction) (r : ℕ) (residuals : ℕ → ℝ) (jacobians : Jacs) : Out :=
  match g with
  | none => ⟨true, residuals, jacobians⟩
  | some g =>
    -- `unconditioned_residual` is a copy; the residual and the derivative are written in place
    let o := g.evaluate (fun _ _ => residuals r) (fun k => residuals (r + k))
      (jacobians.map fun _ => fun _ => some fun _ => 0)
    let residuals := fun q => if r ≤ q then o.residuals (q - r) else residuals q
    if o.ok then
      match jacobians with
      | none => ⟨true, residuals, none⟩
      | some js =>
        let d := ((o.jacobians.getD fun _ => none) 0).getD (fun _ => 0) 0
        ⟨true, residuals, some (scaleRow sizes r d js)⟩
    else ⟨false, residuals, jacobians⟩

/-- The loop over the residuals (conditioned_cost_function.cc:87-128), from `r` on. -/
def conditionLoop (sizes : List ℕ) : List (Option CostFunction) → ℕ → (ℕ → ℝ) → Jacs → Out
  | [], _, residuals, jacobians => ⟨true, residuals, jacobians⟩
  | g :: gs, r, residuals, jacobians =>
    let o := conditionRow sizes g r residuals jacobians
    if o.ok then conditionLoop sizes gs (r + 1) o.residuals o.jacobians else o

/-- A conditioner has one residual and one parameter (conditioned_cost_function.cc:58-67). -/
def CostFunction.isScalar (g : CostFunction) : Prop := g.numResiduals = 1 ∧ g.sizes = [1]

open Classical in
/-- `ConditionedCostFunction` (conditioned_cost_function.cc:46-129); `none`: a `CHECK` fails.  A null conditioner is
`none`. -/
def conditioned (w : CostFunction) (conditioners : List (Option CostFunction)) : Option CostFunction :=
  if w.numResiduals = conditioners.length ∧ ∀ g, some g ∈ conditioners → g.isScalar then
    some
      { sizes := w.sizes
        numResiduals := w.numResiduals
        evaluate := fun p residuals jacobians =>
          let o := w.evaluate p residuals jacobians
          if o.ok then conditionLoop w.sizes conditioners 0 o.residuals o.jacobians else o }
  else none

/-- `std::unique` on a sorted range: drop what equals its predecessor. -/
def unique : List ℕ → List ℕ
  | [] => []
  | [a] => [a]
  | a :: b :: l => if a = b then unique (b :: l) else a :: unique (b :: l)

/-- The pointers that `~ConditionedCostFunction` (conditioned_cost_function.cc:69-76, stl_util.h:58-69) passes to
`delete`, in order, given the addresses of the conditioners (0 is null) and of the wrapped cost function, whose
`std::unique_ptr` member goes last. -/
def deletes (takeOwnership : Bool) (wrapped : ℕ) (conditioners : List ℕ) : List ℕ :=
  if takeOwnership then unique (conditioners.mergeSort fun a b => decide (a ≤ b)) ++ [wrapped] else []

/-! ## CostFunctionToFunctor -/

/-- `parameter_blocks` and `jacobian_blocks` as offsets into the two arrays
(dynamic_cost_function_to_functor.h:135-144). -/
def blockPointers (numResiduals : ℕ) : List ℕ → ℕ → ℕ → List (ℕ × ℕ)
  | [], _, _ => []
  | s :: sizes, pp, jp => (pp, jp) :: blockPointers numResiduals sizes (pp + s) (jp + numResiduals * s)

/-- The array of the parameters (dynamic_cost_function_to_functor.h:135-144), from block `i` on. -/
def fillParameters {N : ℕ} (inputs : ℕ → ℕ → Jet N) : List ℕ → ℕ → ℕ → (ℕ → ℝ) → ℕ → ℝ
  | [], _, _, arr => arr
  | s :: sizes, i, pp, arr =>
    fillParameters inputs sizes (i + 1) (pp + s) fun q =>
      if pp ≤ q ∧ q < pp + s then (inputs i (q - pp)).a else arr q

/-- The array of the Jacobians after the cost function has written through the pointers into it: block after block,
each within its `num_residuals * size` elements. -/
def storeBlocks (numResiduals : ℕ) (ptrs : List (ℕ × ℕ)) (blocks : ℕ → Option (ℕ → ℝ)) :
    List ℕ → ℕ → (ℕ → ℝ) → ℕ → ℝ
  | [], _, arr => arr
  | s :: sizes, i, arr =>
    storeBlocks numResiduals ptrs blocks sizes (i + 1) fun q =>
      if (ptrs.getD i (0, 0)).2 ≤ q ∧ q < (ptrs.getD i (0, 0)).2 + numResiduals * s then
        ((blocks i).getD fun _ => 0) (q - (ptrs.getD i (0, 0)).2)
      else arr q

/-- The infinitesimal part of one output (dynamic_cost_function_to_functor.h:171-179), from block `j` on. -/
def chain {N : ℕ} (inputs : ℕ → ℕ → Jet N) (ptrs : List (ℕ × ℕ)) (jac : ℕ → ℝ) (i : ℕ) :
    List ℕ → ℕ → (Fin N → ℝ) → Fin N → ℝ
  | [], _, v => v
  | s :: sizes, j, v =>
    chain inputs ptrs jac i sizes (j + 1) ((List.range s).foldl
      (fun v k => v + jac ((ptrs.getD j (0, 0)).2 + (i * s + k)) • (inputs j k).v) v)

/-- `DynamicCostFunctionToFunctor::operator()` on jets (dynamic_cost_function_to_functor.h:115-183): the verdict and
what is left in `output`, which does not overlap the inputs.  `junk` is what the arrays hold at first. -/
def functorJets {N : ℕ} (c : CostFunction) (junk : ℕ → ℝ) (inputs : ℕ → ℕ → Jet N) (output : ℕ → Jet N) :
    Bool × (ℕ → Jet N) :=
  let ptrs := blockPointers c.numResiduals c.sizes 0 0
  let parameters := fillParameters inputs c.sizes 0 0 junk
  let o := c.evaluate (fun i j => parameters ((ptrs.getD i (0, 0)).1 + j)) junk
    (some fun i => if i < c.sizes.length then some fun k => junk ((ptrs.getD i (0, 0)).2 + k) else none)
  if o.ok then
    let jac := storeBlocks c.numResiduals ptrs (o.jacobians.getD fun _ => none) c.sizes 0 junk
    (true, fun i => if i < c.numResiduals then ⟨o.residuals i, chain inputs ptrs jac i c.sizes 0 0⟩ else output i)
  else (false, output)

/-- `DynamicCostFunctionToFunctor::operator()` on doubles (dynamic_cost_function_to_functor.cc:53-56). -/
def functorReals (c : CostFunction) (parameters : Params) (residuals : ℕ → ℝ) : Bool × (ℕ → ℝ) :=
  ((c.evaluate parameters residuals none).ok, (c.evaluate parameters residuals none).residuals)

/-- `CostFunctionToFunctor<kNumResiduals, Ns...>::CostFunctionToFunctor` (cost_function_to_functor.h:108-131);
`none` as the number of residuals is `DYNAMIC`; false: a `CHECK` fails. -/
def staticFits (kNumResiduals : Option ℕ) (ns : List ℕ) (c : CostFunction) : Bool :=
  (match kNumResiduals with
    | none => true
    | some k => decide (0 < k)) &&
  decide (c.sizes.length = ns.length) &&
  (List.range ns.length).all (fun i => decide (ns.getD i 0 = c.sizes.getD i 0)) &&
  decide (c.sizes.sum = ns.sum)

/-! ## GradientChecker -/

/-- `IsClose` (is_close.cc:36-60): the verdict, the relative and the absolute error. -/
def isClose (x y relativePrecision : ℝ) : Bool × ℝ × ℝ :=
  let absoluteError := |x - y|
  let relativeError := if x = 0 ∨ y = 0 then absoluteError else absoluteError / max |x| |y|
  (decide (relativeError < |relativePrecision|), relativeError, absoluteError)

/-- A manifold as the checker uses it: `TangentSize`, `AmbientSize` and `PlusJacobian`, whose verdict is ignored, so
that the matrix is what it leaves in memory that has not been set. -/
structure Mfld where
  ambient : ℕ
  tangent : ℕ
  plusJacobian : (ℕ → ℝ) → (ℕ → ℝ) → ℕ → ℝ

/-- Matrices of the results: row and column. -/
abbrev Mat := ℕ → ℕ → ℝ

/-- What `EvaluateCostFunction` leaves: residuals, Jacobians (row major) and Jacobians in the tangent spaces. -/
structure Evaluation where
  ok : Bool
  residuals : ℕ → ℝ
  jacobians : ℕ → ℕ → ℝ
  localCols : ℕ → ℕ
  localJacobians : ℕ → Mat

/-- The Jacobian of one block in the tangent space (gradient_checker.cc:99-112); `none`: the `CHECK` on the size
fails. -/
def toLocal (size : ℕ) (M : Option Mfld) (x : ℕ → ℝ) (junk : ℕ → ℝ) (J : ℕ → ℝ) : Option (ℕ × Mat) :=
  match M with
  | none => some (size, fun r c => J (r * size + c))
  | some M =>
    if size = M.ambient then
      let P := M.plusJacobian x junk
      some (M.tangent, fun r c => ∑ k ∈ Finset.range M.ambient, J (r * size + k) * P (k * M.tangent + c))
    else none

/-- The number of columns of a block in the tangent space (gradient_checker.cc:70-76). -/
def localSize (size : ℕ) (M : Option Mfld) : ℕ :=
  match M with
  | none => size
  | some M => M.tangent

open Classical in
/-- `EvaluateCostFunction` (gradient_checker.cc:54-114); `none`: a `CHECK` fails. -/
def evaluateCostFunction (c : CostFunction) (manifolds : ℕ → Option Mfld) (junk : ℕ → ℝ) (p : Params) :
    Option Evaluation :=
  if c.numResiduals = 0 then none
  else
    let o := c.evaluate p (fun _ => 0) (some fun i => if i < c.sizes.length then some fun _ => 0 else none)
    let J : ℕ → ℕ → ℝ := fun i => ((o.jacobians.getD fun _ => none) i).getD fun _ => 0
    if o.ok then
      if ∀ i < c.sizes.length, (toLocal (c.sizes.getD i 0) (manifolds i) (p i) junk (J i)).isSome then
        some ⟨true, o.residuals, J,
          fun i => ((toLocal (c.sizes.getD i 0) (manifolds i) (p i) junk (J i)).getD (0, fun _ _ => 0)).1,
          fun i => ((toLocal (c.sizes.getD i 0) (manifolds i) (p i) junk (J i)).getD (0, fun _ _ => 0)).2⟩
      else none
    else some ⟨false, o.residuals, J, fun i => localSize (c.sizes.getD i 0) (manifolds i), fun _ _ _ => 0⟩

/-- `ProbeResults` (gradient_checker.h:85-118) without the log. -/
structure ProbeResults where
  returnValue : Bool
  residuals : ℕ → ℝ
  jacobians : ℕ → ℕ → ℝ
  localJacobians : ℕ → Mat
  numericJacobians : ℕ → ℕ → ℝ
  localNumericJacobians : ℕ → Mat
  maximumRelativeError : ℝ

/-- The entries compared: block, row, column, in order (gradient_checker.cc:222-248). -/
def entries (numBlocks rows : ℕ) (cols : ℕ → ℕ) : List (ℕ × ℕ × ℕ) :=
  (List.range numBlocks).flatMap fun k => (List.range rows).flatMap fun i => (List.range (cols k)).map fun j => (k, i, j)

/-- The loop over the entries (gradient_checker.cc:222-273): the number of bad ones and the worst relative error. -/
def compareLoop (L : ℕ → Mat) (L' : ℕ → Mat) (precision : ℝ) : List (ℕ × ℕ × ℕ) → ℕ × ℝ → ℕ × ℝ
  | [], s => s
  | (k, i, j) :: es, s =>
    let c := isClose (L k i j) (L' k i j) precision
    compareLoop L L' precision es (if c.1 then s.1 else s.1 + 1, if s.2 < c.2.1 then c.2.1 else s.2)

/-- `GradientChecker::Probe` (gradient_checker.cc:144-290) of `c` with the numerically differentiated `n`; `none`: a
`CHECK` fails. -/
def probe (c n : CostFunction) (manifolds : ℕ → Option Mfld) (junk : ℕ → ℝ) (precision : ℝ) (p : Params) :
    Option (Bool × ProbeResults) := do
  let a ← evaluateCostFunction c manifolds junk p
  let b ← evaluateCostFunction n manifolds junk p
  let r : ProbeResults := ⟨a.ok && b.ok, a.residuals, a.jacobians, a.localJacobians, b.jacobians, b.localJacobians, 0⟩
  if a.ok && b.ok then
    if (List.range c.numResiduals).all fun i => (isClose (a.residuals i) (b.residuals i) precision).1 then
      let s := compareLoop a.localJacobians b.localJacobians precision
        (entries c.sizes.length c.numResiduals a.localCols) (0, 0)
      some (decide (s.1 = 0), { r with maximumRelativeError := s.2 })
    else some (false, r)
  else some (false, r)

/-- The cost function that `GradientChecker::GradientChecker` (gradient_checker.cc:117-142) makes:
`DynamicNumericDiffCostFunction<CostFunction, RIDDERS>`, which calls the function without Jacobians. -/
def numericOf (o : NumericDiff.Options) (junk : ℕ → ℕ → ℝ) (c : CostFunction) : CostFunction where
  sizes := c.sizes
  numResiduals := c.numResiduals
  evaluate := fun p residuals jacobians =>
    let f : NumericDiff.Functor c.numResiduals := fun p =>
      if (c.evaluate p (fun _ => 0) none).ok then some fun i => (c.evaluate p (fun _ => 0) none).residuals i else none
    let r := NumericDiff.dynamicNumericEvaluate o .ridders c.sizes f (fun k i => junk k i) p
      (fun i => residuals i) jacobians
    ⟨r.ok, fun i => if h : i < c.numResiduals then r.residuals ⟨i, h⟩ else residuals i,
      jacobians.map fun _ => r.jacobians⟩

/-- `GradientCheckingCostFunction::Evaluate` (gradient_checking_cost_function.cc:81-127): what is left and whether the
callback is told of an error; `none`: a `CHECK` fails. -/
def checkingEvaluate (c n : CostFunction) (manifolds : ℕ → Option Mfld) (junk : ℕ → ℝ) (precision : ℝ) (p : Params)
    (residuals : ℕ → ℝ) (jacobians : Jacs) : Option (Out × Bool) :=
  match jacobians with
  | none => some (c.evaluate p residuals none, false)
  | some js =>
    (probe c n manifolds junk precision p).map fun r =>
      if r.2.returnValue then
        (⟨true, fun i => if i < c.numResiduals then r.2.residuals i else residuals i,
          some fun k => if k < c.sizes.length then
            (js k).map fun a q => if q < c.numResiduals * c.sizes.getD k 0 then r.2.jacobians k q else a q
          else js k⟩, !r.1)
      else (⟨false, residuals, some js⟩, false)

/-- `GradientCheckingIterationCallback::operator()` (gradient_checking_cost_function.cc:143-150), given whether an
error was reported: whether the solver is aborted. -/
def aborts (errorDetected : Bool) : Bool := errorDetected

end

end Ceres.Adapters
