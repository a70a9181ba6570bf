import Verif.Problem.Model
import Mathlib.Order.Defs.LinearOrder
import Mathlib.Algebra.Group.Defs
/-!
# Model of the C interface (internal/ceres/c_api.cc)

Problems made through the C interface, the objects that wrap the callbacks of the user, and
the data of the stock loss functions.  The container is the one of `Verif.Problem.Model`.

Simplifications:
* Handles returned by the interface are numbered in the order of the calls that return them.
  `NULL` is `none` where the code accepts it.
* What a solve does with the values is not modelled here: a solve evaluates residual blocks,
  any of them, in any order, any number of times.  Which, and whether the callback of the
  user succeeded each time, is part of the call.
* The two arrays of length `num_parameter_blocks` are one list of pairs.
-/
namespace Ceres.CApi

open Ceres.Problem (Err State Env RBlock)

/-- A C function pointer and the `user_data` it gets.  The null function is `0`. -/
structure Callback where
  fn : Nat
  data : Nat
  deriving DecidableEq, Repr

/-- `CallbackCostFunction` (c_api.cc:69-93). -/
structure CostWrapper where
  callback : Callback
  numResiduals : Nat
  sizes : List Nat
  deriving DecidableEq, Repr

/-- The stock loss functions (c_api.cc:112-126) with the parameters of their constructors. -/
inductive Stock (D : Type) where
  | huber (a : D)
  | softl1 (a : D)
  | cauchy (a : D)
  | arctan (a : D)
  | tolerant (a b : D)
  deriving DecidableEq, Repr

/-- The address of `ceres_stock_loss_function` (c_api.cc:132-137). -/
def stockFunction : Nat := 1

/-- What happens in the sight of the user: a cost callback is called for residuals of
the given number with the values of the given parameter blocks, a loss callback is called,
or a stock loss function is evaluated. -/
inductive Event (D : Type) where
  | cost (callback : Callback) (numResiduals : Nat) (blocks : List Nat)
  | loss (callback : Callback)
  | stock (function : Stock D)
  deriving DecidableEq, Repr

/-- A `ceres_problem_t`: the container and the wrappers handed to it, or, once freed, how
often each wrapper was deleted. -/
inductive Prob where
  | live (s : State) (costs : List CostWrapper) (losses : List (Option Callback))
  | freed (cDel lDel : Nat → Nat)

/-- Everything the interface manages.  Freed data of a stock loss function is `none`. -/
structure World (D : Type) where
  problems : List Prob
  stock : List (Option (Stock D))
  log : List (Event D)

/-- Nothing was called yet. -/
def World.empty {D : Type} : World D := ⟨[], [], []⟩

/-- The options of a problem made by `new Problem` (c_api.cc:60, problem.h:128-157), and the
sizes of the cost functions handed to it. -/
def envOf (costs : List CostWrapper) : Env where
  fastRemoval := false
  disableSafety := false
  ownCost := true
  ownLoss := true
  ownManifold := true
  sizes := fun c => match costs[c]? with | some w => w.sizes | none => []
  ambient := fun _ => 0
  tangent := fun _ => 0
  order := id
  order_perm := fun _ => List.Perm.refl _

/-- The wrapper of the loss function, if there is one (c_api.cc:158-162). -/
def wrapLoss (fn data : Nat) : Option Callback :=
  if fn ≠ 0 then some ⟨fn, data⟩ else none

/-- `ceres_problem_add_residual_block` (c_api.cc:139-170).  The wrappers made by the `n`-th
call for a problem are the objects `n` of that problem. -/
def addResidualBlock (s : State) (costs : List CostWrapper) (losses : List (Option Callback))
    (cost : Callback) (lossFn lossData numResiduals : Nat) (blocks : List (Nat × Nat)) :
    Except Err Prob := do
  let n := costs.length
  let costs' := costs ++ [⟨cost, numResiduals, blocks.map (·.2)⟩]
  let loss := wrapLoss lossFn lossData
  let x ← Problem.addResidualBlock (envOf costs') s (some n)
    (if loss.isSome then some n else none) (blocks.map (·.1))
  .ok (.live x.1 costs' (losses ++ [loss]))

/-- `CallbackLossFunction::Evaluate` (c_api.cc:102-104) and, if the callback is
`ceres_stock_loss_function` (c_api.cc:132-137), the virtual call in it. -/
def callLoss {D : Type} (stock : List (Option (Stock D))) (cb : Callback) :
    Except Err (List (Event D)) :=
  if cb.fn = stockFunction then
    match stock[cb.data]? with
    | some (some f) => .ok [.stock f]
    | _ => .error .ub
  else .ok [.loss cb]

/-- `ResidualBlock::Evaluate` (residual_block.cc:70-183), the calls in it:
`CallbackCostFunction::Evaluate` (c_api.cc:83-88) and, if that succeeded, the loss function.
`valid` says whether the callback returned true and filled its output. -/
def evaluateBlock {D : Type} (stock : List (Option (Stock D))) (s : State)
    (costs : List CostWrapper) (losses : List (Option Callback)) (rb : RBlock) (valid : Bool) :
    Except Err (List (Event D)) := do
  let blocks ← Problem.userStates s rb.params
  match costs[rb.cost]? with
  | none => .error .ub
  | some c =>
    if s.cDel rb.cost ≠ 0 ∨ c.callback.fn = 0 then .error .ub
    else
      let e : List (Event D) := [.cost c.callback c.numResiduals blocks]
      if valid = false then .ok e
      else
        match rb.loss with
        | none => .ok e
        | some l =>
          if s.lDel l ≠ 0 then .error .ub
          else
            match losses[l]? with
            | some (some cb) => do
              let e' ← callLoss stock cb
              .ok (e ++ e')
            | _ => .error .ub

/-- The evaluations a solve (c_api.cc:172-186) does, each given by the place of the residual
block in the problem.  There is nothing to do for places where there is no block. -/
def evaluations {D : Type} (stock : List (Option (Stock D))) (s : State)
    (costs : List CostWrapper) (losses : List (Option Callback)) :
    List (Nat × Bool) → Except Err (List (Event D))
  | [] => .ok []
  | (i, valid) :: rest =>
    match s.rvec[i]? with
    | none => evaluations stock s costs losses rest
    | some r => do
      let rb ← Problem.getR s r
      let e ← evaluateBlock stock s costs losses rb valid
      let e' ← evaluations stock s costs losses rest
      .ok (e ++ e')

/-- The constructor of a stock loss function fails a `CHECK` (loss_function.cc:95-99). -/
def constructible {D : Type} [LinearOrder D] [Zero D] : Stock D → Bool
  | .tolerant a b => decide (0 ≤ a) && decide (0 < b)
  | _ => true

/-- Calls of the interface.  `solve` carries what the solver evaluates. -/
inductive Call (D : Type) where
  | createProblem
  | freeProblem (k : Option Nat)
  | createStock (f : Stock D)
  | freeStock (d : Option Nat)
  | add (k : Nat) (cost : Callback) (lossFn lossData numResiduals : Nat)
      (blocks : List (Nat × Nat))
  | solve (k : Nat) (what : List (Nat × Bool))
  deriving Repr

/-- One call of the interface (c_api.cc:59-65, 112-130, 139-186).  A handle that is not that
of a live object is undefined behaviour. -/
def step {D : Type} [LinearOrder D] [Zero D] (w : World D) : Call D → Except Err (World D)
  | .createProblem => .ok { w with problems := w.problems ++ [.live Problem.init [] []] }
  | .freeProblem none => .ok w
  | .freeProblem (some k) =>
    match w.problems[k]? with
    | some (.live s costs _) =>
      let d := Problem.destroy (envOf costs) s
      .ok { w with problems := w.problems.set k (.freed d.1 d.2.1) }
    | _ => .error .ub
  | .createStock f =>
    if constructible f then .ok { w with stock := w.stock ++ [some f] } else .error .abort
  | .freeStock none => .ok w
  | .freeStock (some d) =>
    match w.stock[d]? with
    | some (some _) => .ok { w with stock := w.stock.set d none }
    | _ => .error .ub
  | .add k cost lossFn lossData numResiduals blocks =>
    match w.problems[k]? with
    | some (.live s costs losses) => do
      let p ← addResidualBlock s costs losses cost lossFn lossData numResiduals blocks
      .ok { w with problems := w.problems.set k p }
    | _ => .error .ub
  | .solve k what =>
    match w.problems[k]? with
    | some (.live s costs losses) => do
      let e ← evaluations w.stock s costs losses what
      .ok { w with log := w.log ++ e }
    | _ => .error .ub

/-- A history of calls. -/
def run {D : Type} [LinearOrder D] [Zero D] : World D → List (Call D) → Except Err (World D)
  | w, [] => .ok w
  | w, c :: cs => do
    let w1 ← step w c
    run w1 cs

end Ceres.CApi
