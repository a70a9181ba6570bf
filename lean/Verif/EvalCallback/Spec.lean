import Verif.EvalCallback.Model

/-!
# Specification of the evaluation callback (evaluation_callback.h:40-80)
-/
namespace Ceres.EvalCallback

variable {U X R : Type}

/-- What the parameter arrays contained at the last call of `PrepareForEvaluation`. -/
def lastPrepared : List (Event X) → Option X
  | [] => none
  | e :: l =>
    match lastPrepared l, e with
    | some x, _ => some x
    | none, .prepare x _ _ => some x
    | none, .residuals _ _ => none

/-- The contract of the callback, for a log of calls.

* Whenever cost functions are evaluated, `PrepareForEvaluation` was called immediately before, with
  the parameter arrays holding the point of evaluation, and it was told truly whether derivatives
  are going to be requested.
* Whenever `PrepareForEvaluation` is told that the point is not new, the point is the one of the
  previous call; so if the point differs from it, or there was no previous call, the callback is
  told that it is new. -/
structure Protocol (l : List (Event X)) : Prop where
  prepared : ∀ (i : ℕ) (x : X) (j : Bool), l[i]? = some (.residuals x j) →
    ∃ b, 0 < i ∧ l[i - 1]? = some (.prepare x j b)
  truthful : ∀ (i : ℕ) (x : X) (j b : Bool), l[i]? = some (.prepare x j b) →
    lastPrepared (l.take i) ≠ some x → b = true

/-- The user's code relies on the contract: with the shared data prepared for the point, the cost
functions deliver `f`; `PrepareForEvaluation` prepares the data for the present contents of the
parameter arrays if it is told that they are new, and if it is told that they are not then it may
assume that the data are prepared for that point, except perhaps for derivatives. -/
structure Honours (c : UserCode U X R) (f : X → Bool → R) (Ready : U → X → Bool → Prop) : Prop where
  fresh : ∀ u x j, Ready (c.prepare x j true u) x j
  again : ∀ u x j j', Ready u x j → Ready (c.prepare x j' false u) x j'
  answer : ∀ u x j, c.stateOk x = true → Ready u x j → c.residuals u x j = f x j
  failed : ∀ x j, c.stateOk x = false → f x j = c.failed

/-- All points the user's code gets to see lie in `B`. -/
def SeesOnly (B : X → Prop) (l : List (Event X)) : Prop :=
  ∀ e ∈ l, match e with
    | .prepare x _ _ => B x
    | .residuals x _ => B x

end Ceres.EvalCallback
