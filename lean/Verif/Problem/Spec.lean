import Verif.Problem.Model
/-!
# Specification of the `Problem` container

What the documentation of `ceres::Problem` (include/ceres/problem.h) promises, written
without vectors, indices, maps, dependency sets or reference counts: a problem is a partial
function from addresses to parameter blocks and a partial function from residual block
handles to residual blocks.
-/
namespace Ceres.Problem

structure ParamInfo where
  size : Nat
  isConst : Bool
  manifold : Option Nat
  deriving DecidableEq, Repr

structure ResInfo where
  cost : Nat
  loss : Option Nat
  params : List Nat
  deriving DecidableEq, Repr

/-- The abstract problem.  `next` is the handle the next residual block will get.
`usedC`, `usedL`, `usedM` record which user objects were ever handed over. -/
structure Spec where
  params : Nat → Option ParamInfo
  residuals : Nat → Option ResInfo
  next : Nat
  usedC : Nat → Prop
  usedL : Nat → Prop
  usedM : Nat → Prop

def Spec.empty : Spec where
  params := fun _ => none
  residuals := fun _ => none
  next := 0
  usedC := fun _ => False
  usedL := fun _ => False
  usedM := fun _ => False

/-- `c` is the cost function of a residual block present in the problem. -/
def Spec.inUseC (sp : Spec) (c : Nat) : Prop := ∃ r i, sp.residuals r = some i ∧ i.cost = c

/-- `l` is the loss function of a residual block present in the problem. -/
def Spec.inUseL (sp : Spec) (l : Nat) : Prop := ∃ r i, sp.residuals r = some i ∧ i.loss = some l

/-- An owned function object is gone once it was used and is used no more. -/
def Spec.deadC (env : Env) (sp : Spec) (c : Nat) : Prop :=
  env.ownCost = true ∧ sp.usedC c ∧ ¬ sp.inUseC c

def Spec.deadL (env : Env) (sp : Spec) (l : Nat) : Prop :=
  env.ownLoss = true ∧ sp.usedL l ∧ ¬ sp.inUseL l

/-- The memory range `[a, a+n)` is free in the problem. -/
def Spec.rangeFree (sp : Spec) (a n : Nat) : Prop :=
  ∀ b i, sp.params b = some i → a + n ≤ b ∨ b + i.size ≤ a

open Classical in
/-- Registering the block `[a, a+n)`. -/
noncomputable def Spec.add (sp : Spec) (a n : Nat) : Except Err Spec :=
  if a = 0 then .error .abort
  else
    match sp.params a with
    | some i => if n = i.size then .ok sp else .error .abort
    | none =>
      if sp.rangeFree a n then
        .ok { sp with params := upd sp.params a (some ⟨n, false, none⟩) }
      else .error .abort

/-- Registering several blocks one after the other. -/
noncomputable def Spec.addAll : Spec → List (Nat × Nat) → Except Err Spec
  | sp, [] => .ok sp
  | sp, (a, n) :: rest => do
    let sp1 ← sp.add a n
    Spec.addAll sp1 rest

open Classical in
noncomputable def Spec.addResidual (env : Env) (sp : Spec) (cost loss : Option Nat)
    (ps : List Nat) : Except Err Spec :=
  match cost with
  | none => .error .abort
  | some c =>
    if sp.deadC env c then .error .ub
    else if ∃ l, loss = some l ∧ sp.deadL env l then .error .ub
    else if ps.length ≠ (env.sizes c).length then .error .abort
    else if ¬ ps.Nodup then .error .abort
    else do
      let sp1 ← sp.addAll (ps.zip (env.sizes c))
      .ok { sp1 with
        residuals := upd sp1.residuals sp1.next (some ⟨c, loss, ps⟩)
        next := sp1.next + 1
        usedC := fun c' => sp1.usedC c' ∨ c' = c
        usedL := fun l' => sp1.usedL l' ∨ loss = some l' }

/-- Removing a residual block removes it and nothing else. -/
def Spec.removeResidual (sp : Spec) (r : Nat) : Except Err Spec :=
  match sp.residuals r with
  | none => .error .abort
  | some _ => .ok { sp with residuals := upd sp.residuals r none }

/-- Removing a parameter block removes it and exactly the residual blocks that use it. -/
def Spec.removeParameter (sp : Spec) (a : Nat) : Except Err Spec :=
  match sp.params a with
  | none => .error .abort
  | some _ => .ok { sp with
      params := upd sp.params a none
      residuals := fun r =>
        match sp.residuals r with
        | some i => if a ∈ i.params then none else some i
        | none => none }

def Spec.setConst (sp : Spec) (a : Nat) (c : Bool) : Except Err Spec :=
  match sp.params a with
  | none => .error .abort
  | some i => .ok { sp with params := upd sp.params a (some { i with isConst := c }) }

/-- A manifold must fit the block and be computable at the current point, unless it is the
one already set. -/
def Spec.setManifold (env : Env) (sp : Spec) (a : Nat) (m : Option Nat) (jacOk : Bool) :
    Except Err Spec :=
  match sp.params a with
  | none => .error .abort
  | some i =>
    if m = i.manifold ∨ m = none ∨
        (∃ k, m = some k ∧ env.ambient k = i.size ∧ 0 ≤ env.tangent k ∧ jacOk = true) then
      .ok { sp with
        params := upd sp.params a (some { i with manifold := m })
        usedM := fun k => sp.usedM k ∨ m = some k }
    else .error .abort

noncomputable def specStep (env : Env) (sp : Spec) : Op → Except Err Spec
  | .addParameter a n => sp.add a n
  | .addParameterWithManifold a n m ok => do
    let sp1 ← sp.add a n
    sp1.setManifold env a m ok
  | .addResidual c l ps => sp.addResidual env c l ps
  | .removeResidual r => sp.removeResidual r
  | .removeParameter a => sp.removeParameter a
  | .setConstant a => sp.setConst a true
  | .setVariable a => sp.setConst a false
  | .setManifold a m ok => sp.setManifold env a m ok

noncomputable def specRun (env : Env) : Spec → List Op → Except Err Spec
  | sp, [] => .ok sp
  | sp, o :: os => do
    let sp1 ← specStep env sp o
    specRun env sp1 os

end Ceres.Problem
