import Verif.Session.Props
/-!
Concrete sessions: one that meets the hypotheses of C76 with a solve that reorders, runs inner
iterations, publishes and frees its vectors; and one in which `PlusJacobian` fails at the
user's values, after which a block points to freed memory.
-/
namespace Ceres.Session

/-- Two-parameter cost functions; manifold 0 has ambient size 2, tangent size 1, and
`PlusJacobian` fails at the value 13. -/
def demoEnv : Env Int where
  base := {
    fastRemoval := false, disableSafety := false, ownCost := false, ownLoss := false,
    ownManifold := false
    sizes := fun c => if c = 0 then [2, 2] else [2]
    ambient := fun _ => 2
    tangent := fun _ => 1
    order := id
    order_perm := fun l => List.Perm.refl l }
  jac := fun _ v => decide (v ≠ 13)

/-- Blocks at 10 (with the manifold), 20 and 30 (constant); a residual block on 10 and 20, one
on 20 and 30, one on 30 alone. -/
def demoBuild : List (Op Int) :=
  [ .container (.addParameterWithManifold 10 2 (some 0) false),
    .container (.addParameter 20 2),
    .container (.addParameter 30 2),
    .container (.addResidual (some 0) none [10, 20]),
    .container (.addResidual (some 0) none [20, 30]),
    .container (.addResidual (some 1) none [30]),
    .container (.setConstant 30) ]

def at' (l : List (Nat × Int)) (p : Nat) : Int :=
  ((l.find? (fun e => decide (e.1 = p))).map (·.2)).getD 0

/-- A solve whose reduced program has the blocks in the order 20, 10; it evaluates, tries a
point where `PlusJacobian` fails, frees its vectors, runs inner iterations on block 10,
publishes and ends at another point. -/
def demoSolve : Course Int :=
  .minimized [1, 0] [1, 0]
    [ .eval (at' [(0, 5), (1, 6)]) (fun _ => true),
      .eval (at' [(0, 13), (1, 6)]) (fun _ => true),
      .free,
      .inner (at' [(0, 7), (1, 8)]) [⟨0, [9, 13], 9⟩, ⟨1, [4], 4⟩],
      .publish (at' [(0, 9), (1, 8)]) ]
    (at' [(0, 100), (1, 200)])

def demoOps : List (Op Int) :=
  demoBuild ++
  [ .write 30 3,
    .solve demoSolve,
    .evaluate [] [20] (fun _ => true),
    .container (.setManifold 20 (some 0) false),
    .evaluateResidualBlock 0 (fun _ => true),
    .container (.removeParameter 10),
    .evaluate [] [] (fun _ => true) ]

def demoMem (a : Nat) : Int := a

/-- Memory of the three blocks after a history. -/
def finalMem (r : Except Problem.Err (Sess Int × List (Log Int))) : List Int :=
  match r with
  | .ok (t, _) => [t.mem 10, t.mem 20, t.mem 30]
  | .error _ => []

/-- Everything the cost functions saw in the calls after the construction. -/
def shown (r : Except Problem.Err (Sess Int × List (Log Int))) :
    List (List (Nat × List Int)) :=
  match r with
  | .ok (_, logs) => logs.drop 8
  | .error _ => []

example : finalMem (run demoEnv (init demoMem) demoOps) = [100, 200, 3] := by decide +kernel

example : shown (run demoEnv (init demoMem) demoOps) =
    [ [(2, [3]),
       (1, [6, 3]), (0, [5, 6]),
       (0, [9, 8]), (1, [4, 3]), (0, [9, 4])],
      [(0, [100, 200]), (1, [200, 3]), (2, [3])],
      [], [(0, [100, 200])], [],
      [(2, [3]), (1, [200, 3])] ] := by decide +kernel

/-- The hypotheses of C76 as a check. -/
def actLegalB (env : Env V) (s : Problem.State) : Act V → Bool
  | .publish x => jacAll env s x (activeBlocks env s)
  | .inner _ vs => vs.all (fun v => decide (v.block ∈ activeBlocks env s))
  | _ => true

def courseLegalB (env : Env V) (s : Problem.State) : Course V → Bool
  | .rejected | .fixedFails _ => true
  | .setupFails ps rs =>
    decide (ps.Perm (activeBlocks env s)) && decide (rs.Perm (activeResiduals env s))
  | .minimized ps rs acts final =>
    decide (ps.Perm (activeBlocks env s)) && decide (rs.Perm (activeResiduals env s)) &&
    acts.all (actLegalB env s) && jacAll env s final (activeBlocks env s)

def settledB (env : Env V) (a : ASess V) : Op V → Bool
  | .solve .rejected => true
  | .solve _ | .evaluate _ _ _ => jacAll env a.prob (here a.prob a.mem) a.prob.pvec
  | _ => true

def opLegalB (env : Env V) (a : ASess V) : Op V → Bool
  | .solve c => courseLegalB env a.prob c
  | _ => true

def fineB (env : Env V) : ASess V → List (Op V) → Bool
  | _, [] => true
  | a, o :: os => opLegalB env a o &&
    (match aStep env a o with
     | .ok (a', _) => settledB env a' o && fineB env a' os
     | .error _ => true)

theorem actLegalB_iff (env : Env V) (s : Problem.State) (a : Act V) :
    actLegalB env s a = true ↔ ActLegal env s a := by
  cases a <;> simp [actLegalB, ActLegal]

theorem opLegalB_iff (env : Env V) (a : ASess V) (o : Op V) :
    opLegalB env a o = true ↔ OpLegal env a o := by
  cases o with
  | solve c =>
    cases c <;> simp [opLegalB, OpLegal, courseLegalB, CourseLegal, actLegalB_iff, and_assoc]
  | _ => simp [opLegalB, OpLegal]

theorem settledB_iff (env : Env V) (a : ASess V) (o : Op V) :
    settledB env a o = true ↔ Settled env a o := by
  cases o with
  | solve c => cases c <;> simp [settledB, Settled]
  | _ => simp [settledB, Settled]

theorem fineB_iff (env : Env V) (ops : List (Op V)) : ∀ a : ASess V,
    fineB env a ops = true → Fine env a ops := by
  induction ops with
  | nil => intro a _; trivial
  | cons o os ih =>
    intro a h
    simp only [fineB, Bool.and_eq_true] at h
    refine ⟨(opLegalB_iff env a o).1 h.1, ?_⟩
    intro a' log ha
    have h2 := h.2
    rw [ha] at h2
    simp only [Bool.and_eq_true] at h2
    exact ⟨(settledB_iff env a' o).1 h2.1, ih a' h2.2⟩

/-- The demonstration history meets the hypotheses of C76. -/
example : Fine demoEnv (aInit demoMem) demoOps := fineB_iff _ _ _ (by decide +kernel)

/-! ### What goes wrong if `PlusJacobian` fails at the user's values -/

/-- The user writes 13 to block 10, asks for an evaluation with the blocks in the order 20, 10
(it fails, as it should), repairs block 10, makes block 20 constant and evaluates again. -/
def trapOps : List (Op Int) :=
  demoBuild ++
  [ .write 10 13,
    .evaluate [] [20, 10] (fun _ => true),
    .write 10 1,
    .container (.setConstant 20),
    .evaluate [] [] (fun _ => true) ]

/-- **C76, the hypothesis is needed** (problem_impl.cc:745, program.cc:104-112): at the end of
the failed evaluation `SetParameterBlockStatePtrsToUserStatePtrs` stops at block 10 and its
result is ignored, so block 20 goes on pointing into the vector that `Evaluate` frees on
return.  As a constant block it is never pointed elsewhere again, and the next evaluation, at
perfectly good values, reads freed memory. -/
theorem failed_evaluation_leaves_dangling :
    (run demoEnv (init demoMem) trapOps).toOption.isNone = true ∧
    (match run demoEnv (init demoMem) trapOps with | .error .ub => true | _ => false) = true ∧
    (aRun demoEnv (aInit demoMem) trapOps).toOption.isSome = true := by
  decide +kernel

/-- The same with a solve whose reduced program has the blocks in another order than the
problem (a reordering chosen by the preprocessor, reorder_program.cc:402,464,535,619). -/
def trapSolve : List (Op Int) :=
  demoBuild ++
  [ .write 10 13,
    .solve (.minimized [1, 0] [0, 1] [.eval (at' [(0, 13), (1, 20)]) (fun _ => true)]
      (at' [(0, 13), (1, 20)])),
    .write 10 1,
    .container (.setConstant 20),
    .evaluate [] [] (fun _ => true) ]

theorem failed_solve_leaves_dangling :
    (match run demoEnv (init demoMem) trapSolve with | .error .ub => true | _ => false) = true := by
  decide +kernel

end Ceres.Session
