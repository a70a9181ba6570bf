import Verif.Session.Model
/-!
# Specification of a session

A problem in the user's hands is the container and the user's memory, nothing else: no state
pointers, marks, column numbers or temporary constness.  Evaluating shows the current values
to the cost functions and changes nothing.  Solving shows the cost functions the trial point at
the active blocks and the user's memory everywhere else, and changes the memory of the active
blocks only.
-/
namespace Ceres.Session

open Ceres.Problem (Err State upd mapFind)

variable {V : Type}

/-- A problem and the user's memory. -/
structure ASess (V : Type) where
  prob : State
  mem : Nat → V

/-- A block that the user left variable and that has a tangent space. -/
def varying (env : Env V) (s : State) (p : Nat) : Bool :=
  match s.pheap p with
  | some b => !b.isConst &&
      (match b.manifold with
       | none => decide (b.size ≠ 0)
       | some m => decide (env.base.tangent m ≠ 0))
  | none => false

/-- The value the user's memory holds for a block. -/
def here (s : State) (mem : Nat → V) (p : Nat) : V := mem (addrOf s p)

/-- What residual blocks are shown if block `p` has the value `f p`. -/
def seen (s : State) (f : Nat → V) (rs : List Nat) : Log V :=
  rs.map (fun r => (r, (paramsOf s r).map f))

/-- The residual blocks that depend on some varying block, the others, and the varying blocks
that some residual block depends on. -/
def activeResiduals (env : Env V) (s : State) : List Nat :=
  s.rvec.filter (fun r => (paramsOf s r).any (varying env s))

def fixedResiduals (env : Env V) (s : State) : List Nat :=
  s.rvec.filter (fun r => !(paramsOf s r).any (varying env s))

def activeBlocks (env : Env V) (s : State) : List Nat :=
  s.pvec.filter (fun p => varying env s p && s.rvec.any (fun r => decide (p ∈ paramsOf s r)))

/-- `PlusJacobian` succeeds at `f` for every varying block of a list. -/
def jacAll (env : Env V) (s : State) (f : Nat → V) (ps : List Nat) : Bool :=
  ps.all (fun p => !varying env s p || jacOk env s p (f p))

/-- The point `x` at the active blocks, the user's memory elsewhere. -/
def overlay (env : Env V) (s : State) (mem : Nat → V) (x : Nat → V) (p : Nat) : V :=
  if p ∈ activeBlocks env s then x p else here s mem p

/-- User memory after the blocks `ps` have received `x`. -/
def putAll (s : State) (x : Nat → V) (ps : List Nat) (mem : Nat → V) (a : Nat) : V :=
  match ps.find? (fun p => decide (addrOf s p = a)) with
  | some p => x p
  | none => mem a

/-- User memory after the active blocks have received `x`. -/
def put (env : Env V) (s : State) (x : Nat → V) (mem : Nat → V) : Nat → V :=
  putAll s x (activeBlocks env s) mem

/-- Evaluation of the selected residual blocks, at the current values. -/
def aEvaluate (env : Env V) (a : ASess V) (rsel psel : List Nat) (sel : Nat → Bool) :
    Except Err (Log V) :=
  if ¬ allLive a.prob rsel then .error .ub
  else do
    let found ← lookup a.prob psel
    let ps := if psel = [] then a.prob.pvec else found
    let rs := if rsel = [] then a.prob.rvec else rsel
    if jacAll env a.prob (here a.prob a.mem) ps then
      .ok (seen a.prob (here a.prob a.mem) (rs.filter sel))
    else .ok []

/-- The blocks of a residual block up to the first constant one for which a Jacobian is
requested, and whether there is such a one. -/
def beforeRefusal (env : Env V) (s : State) (want : Nat → Bool) :
    List Nat → Nat → List Nat × Bool
  | [], _ => ([], false)
  | p :: ps, i =>
    if ¬ varying env s p ∧ want i then ([], true)
    else
      let r := beforeRefusal env s want ps (i + 1)
      (p :: r.1, r.2)

/-- Evaluation of one residual block at the current values: refused if a Jacobian with respect
to a constant block is requested; the program stops if `PlusJacobian` fails. -/
def aEvaluateResidualBlock (env : Env V) (a : ASess V) (r : Nat) (want : Nat → Bool) :
    Except Err (Log V) :=
  match a.prob.rheap r with
  | none => .error .ub
  | some rb =>
    let (ps, refused) := beforeRefusal env a.prob want rb.params 0
    if jacAll env a.prob (here a.prob a.mem) ps then
      if refused then .ok [] else .ok (seen a.prob (here a.prob a.mem) [r])
    else .error .abort

/-- What the cost functions are shown while one block is optimised alone. -/
def aTries (env : Env V) (s : State) (mem : Nat → V) (x : Nat → V) (rs : List Nat) (p : Nat)
    (vs : List V) : Log V :=
  vs.flatMap (fun v =>
    if jacOk env s p v then
      seen s (overlay env s mem (upd x p v)) (rs.filter (fun r => decide (p ∈ paramsOf s r)))
    else [])

/-- Inner iterations: the blocks visited so far keep the value they were left with. -/
def aVisits (env : Env V) (s : State) (mem : Nat → V) (rs : List Nat) :
    (Nat → V) → List (Visit V) → Log V
  | _, [] => []
  | x, v :: vs =>
    aTries env s mem x rs v.block v.tried ++
      aVisits env s mem rs (upd x v.block v.result) vs

/-- One thing the minimizer does: memory afterwards and what the cost functions see. -/
def aAct (env : Env V) (s : State) (rs : List Nat) (mem : Nat → V) :
    Act V → (Nat → V) × Log V
  | .eval x sel =>
    (mem, if jacAll env s x (activeBlocks env s) then
      seen s (overlay env s mem x) (rs.filter sel) else [])
  | .publish x => (put env s x mem, [])
  | .inner x vs => (mem, aVisits env s mem rs x vs)
  | .write a v => (upd mem a v, [])
  | .free => (mem, [])

def aActAll (env : Env V) (s : State) (rs : List Nat) :
    (Nat → V) → List (Act V) → (Nat → V) × Log V
  | mem, [] => (mem, [])
  | mem, a :: as =>
    let r := aAct env s rs mem a
    let r' := aActAll env s rs r.1 as
    (r'.1, r.2 ++ r'.2)

/-- A solve: the constant residual blocks are seen once, then the minimizer works on the active
ones; the user's memory receives what is published. -/
def aSolve (env : Env V) (a : ASess V) : Course V → (Nat → V) × Log V
  | .rejected => (a.mem, [])
  | .fixedFails k =>
    (a.mem, seen a.prob (here a.prob a.mem) ((fixedResiduals env a.prob).take (k + 1)))
  | .setupFails _ _ =>
    (a.mem, seen a.prob (here a.prob a.mem) (fixedResiduals env a.prob))
  | .minimized _ rs acts final =>
    let log := seen a.prob (here a.prob a.mem) (fixedResiduals env a.prob)
    if activeBlocks env a.prob = [] then (a.mem, log)
    else
      let r := aActAll env a.prob rs a.mem acts
      (put env a.prob final r.1, log ++ r.2)

/-- A call that sets a manifold tries it at the value in the user's memory. -/
def aResolve (env : Env V) (a : ASess V) : Problem.Op → Problem.Op
  | .setManifold b (some m) _ => .setManifold b (some m) (env.jac m (a.mem b))
  | .addParameterWithManifold b n (some m) _ =>
    .addParameterWithManifold b n (some m) (env.jac m (a.mem b))
  | o => o

def aStep (env : Env V) (a : ASess V) : Op V → Except Err (ASess V × Log V)
  | .container o => do
    let s ← Problem.step env.base a.prob (aResolve env a o)
    .ok (⟨s, a.mem⟩, [])
  | .write b v => .ok (⟨a.prob, upd a.mem b v⟩, [])
  | .evaluate rsel psel sel => do
    let log ← aEvaluate env a rsel psel sel
    .ok (a, log)
  | .evaluateResidualBlock r want => do
    let log ← aEvaluateResidualBlock env a r want
    .ok (a, log)
  | .solve c =>
    let r := aSolve env a c
    .ok (⟨a.prob, r.1⟩, r.2)

def aRun (env : Env V) : ASess V → List (Op V) → Except Err (ASess V × List (Log V))
  | a, [] => .ok (a, [])
  | a, o :: os => do
    let (a1, log) ← aStep env a o
    let (a2, logs) ← aRun env a1 os
    .ok (a2, log :: logs)

def aInit (mem : Nat → V) : ASess V := ⟨Problem.init, mem⟩

/-! ### Which histories -/

/-- A point that is copied to the user has been evaluated: `PlusJacobian` succeeds there. -/
def ActLegal (env : Env V) (s : State) : Act V → Prop
  | .publish x => jacAll env s x (activeBlocks env s) = true
  | .inner _ vs => ∀ v ∈ vs, v.block ∈ activeBlocks env s
  | _ => True

/-- The reduced program consists of the active blocks and residual blocks, in any order. -/
def CourseLegal (env : Env V) (s : State) : Course V → Prop
  | .rejected | .fixedFails _ => True
  | .setupFails ps rs => ps.Perm (activeBlocks env s) ∧ rs.Perm (activeResiduals env s)
  | .minimized ps rs acts final =>
    ps.Perm (activeBlocks env s) ∧ rs.Perm (activeResiduals env s) ∧
    (∀ a ∈ acts, ActLegal env s a) ∧
    jacAll env s final (activeBlocks env s) = true

def OpLegal (env : Env V) (a : ASess V) : Op V → Prop
  | .solve c => CourseLegal env a.prob c
  | _ => True

/-- At the end of a solve or an evaluation `PlusJacobian` succeeds at what the user's memory
holds (a solve with invalid options does not touch anything). -/
def Settled (env : Env V) (a : ASess V) : Op V → Prop
  | .solve .rejected => True
  | .solve _ | .evaluate _ _ _ => jacAll env a.prob (here a.prob a.mem) a.prob.pvec = true
  | _ => True

/-- Every solve of the history is legal and every solve and evaluation ends settled. -/
def Fine (env : Env V) : ASess V → List (Op V) → Prop
  | _, [] => True
  | a, o :: os => OpLegal env a o ∧
    ∀ a' log, aStep env a o = .ok (a', log) → Settled env a' o ∧ Fine env a' os

end Ceres.Session
