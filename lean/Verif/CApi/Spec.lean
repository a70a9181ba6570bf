import Verif.CApi.Model
/-!
# Specification of the C interface

What include/ceres/c_api.h promises: a problem is the list of the residual blocks added to it,
each with the callbacks it was given; stock loss function data lives until it is freed.  No
container, wrappers, ownership or reference counts.
-/
namespace Ceres.CApi

open Ceres.Problem (Err)

/-- What the user said when they added a residual block. -/
structure Added where
  cost : Callback
  loss : Option Callback
  numResiduals : Nat
  /-- addresses and sizes of the parameter blocks -/
  blocks : List (Nat × Nat)
  deriving DecidableEq, Repr

/-- Parameter blocks, by address and size, that can be in one problem: none is null, the same
address means the same size, and two blocks do not overlap. -/
def Compatible (l : List (Nat × Nat)) : Prop :=
  ∀ x ∈ l, x.1 ≠ 0 ∧ ∀ y ∈ l,
    (x.1 = y.1 → x.2 = y.2) ∧ (x.1 ≠ y.1 → x.1 + x.2 ≤ y.1 ∨ y.1 + y.2 ≤ x.1)

instance (l : List (Nat × Nat)) : Decidable (Compatible l) := by
  unfold Compatible; infer_instance

/-- All parameter blocks of a problem. -/
def blocksOf (added : List Added) : List (Nat × Nat) := (added.map Added.blocks).flatten

/-- The problems, each what was added to it and whether it still lives; the stock data,
`none` if freed; what the user saw. -/
structure SpecWorld (D : Type) where
  problems : List (List Added × Bool)
  stock : List (Option (Stock D))
  log : List (Event D)

/-- What one evaluation of a residual block shows: the cost callback with its data, then, if
that succeeded, the loss callback with its data, or the stock loss function, which must not
have been freed. -/
def specEvaluate {D : Type} (stock : List (Option (Stock D))) (a : Added) (valid : Bool) :
    Except Err (List (Event D)) :=
  if a.cost.fn = 0 then .error .ub
  else
    let e : Event D := .cost a.cost a.numResiduals (a.blocks.map (·.1))
    match valid, a.loss with
    | true, some cb =>
      if cb.fn = stockFunction then
        match stock[cb.data]? with
        | some (some f) => .ok [e, .stock f]
        | _ => .error .ub
      else .ok [e, .loss cb]
    | _, _ => .ok [e]

/-- Several evaluations, of the residual blocks numbered in the order they were added. -/
def specEvaluations {D : Type} (stock : List (Option (Stock D))) (added : List Added) :
    List (Nat × Bool) → Except Err (List (Event D))
  | [] => .ok []
  | (i, valid) :: rest =>
    match added[i]? with
    | none => specEvaluations stock added rest
    | some a => do
      let e ← specEvaluate stock a valid
      let e' ← specEvaluations stock added rest
      .ok (e ++ e')

/-- One call. -/
def specStep {D : Type} [LinearOrder D] [Zero D] (w : SpecWorld D) :
    Call D → Except Err (SpecWorld D)
  | .createProblem => .ok { w with problems := w.problems ++ [([], true)] }
  | .freeProblem none => .ok w
  | .freeProblem (some k) =>
    match w.problems[k]? with
    | some (l, true) => .ok { w with problems := w.problems.set k (l, false) }
    | _ => .error .ub
  | .createStock (.tolerant a b) =>
    if 0 ≤ a ∧ 0 < b then .ok { w with stock := w.stock ++ [some (.tolerant a b)] }
    else .error .abort
  | .createStock f => .ok { w with stock := w.stock ++ [some f] }
  | .freeStock none => .ok w
  | .freeStock (some d) =>
    match w.stock[d]? with
    | some (some _) => .ok { w with stock := w.stock.set d none }
    | _ => .error .ub
  | .add k cost lossFn lossData numResiduals blocks =>
    match w.problems[k]? with
    | some (l, true) =>
      let loss := if lossFn = 0 then none else some ⟨lossFn, lossData⟩
      let a : Added := ⟨cost, loss, numResiduals, blocks⟩
      if (blocks.map (·.1)).Nodup ∧ Compatible (blocksOf l ++ blocks) then
        .ok { w with problems := w.problems.set k (l ++ [a], true) }
      else .error .abort
    | _ => .error .ub
  | .solve k what =>
    match w.problems[k]? with
    | some (l, true) => do
      let e ← specEvaluations w.stock l what
      .ok { w with log := w.log ++ e }
    | _ => .error .ub

/-- A history of calls. -/
def specRun {D : Type} [LinearOrder D] [Zero D] :
    SpecWorld D → List (Call D) → Except Err (SpecWorld D)
  | w, [] => .ok w
  | w, c :: cs => do
    let w1 ← specStep w c
    specRun w1 cs

end Ceres.CApi
