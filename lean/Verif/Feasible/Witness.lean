import Verif.Feasible.Solve
import Verif.Feasible.Inner

/-!
# Concrete bounded solves (C58)

Block 0 has two coordinates, in [0, 2] and [0, 10]; block 1 is constant.
-/
namespace Ceres.Feasible

open Ceres.TrustRegion (CB Term Opts Iter Strategy)
open Ceres.Driver
open Ceres.Program (PB RB removeFixedBlocks)

/-- The parameter blocks. -/
def fPB : ℕ → PB ℚ
  | 0 => ⟨0, 2, 0, false, none, some [0, 0], some [2, 10], 0, 0, 0⟩
  | _ => ⟨2, 1, 2, true, none, none, none, 1, 2, 2⟩

/-- The cost: squared distance from (5, 1). -/
def fCost (l : List (List ℚ)) : Option ℚ :=
  match l with
  | [a, b] :: _ => some ((a - 5) * (a - 5) + (b - 1) * (b - 1))
  | _ => some 0

def fProblem : Problem (List ℚ) ℚ where
  prog := ⟨[0, 1], [⟨[0], fCost⟩, ⟨[1], fun _ => some 7⟩]⟩
  isConst b := b == 1
  valid _ := true

/-- The memory before the call. -/
def fWorld (a b : ℚ) : World (List ℚ) (List (List ℚ)) :=
  ⟨fun n => if n = 0 then [a, b] else [8], [], false⟩

def fOptions : Options (List ℚ) (Iter (Pt ℚ) ℚ) (List (List ℚ)) :=
  ⟨true, false, true, true, [fun _ m a => (m, a ++ [m 0], .continue)]⟩

def fBase : Env (List ℚ) (Iter (Pt ℚ) ℚ) ℚ (List (List ℚ)) where
  cudaOk := true
  prepare := id
  setupOk _ := true
  order := id
  minimizer _ _ _ := .done [] .crash
  cost := Iter.cost

/-- The environment of the minimizer; every step promises a decrease of 5. -/
def fEnv (jac : Pt ℚ → Option ℚ) (grad : ℚ) (blocks : List ℕ) : TrustRegion.Env (Pt ℚ) (Pt ℚ) ℚ where
  plus := programPlus fPB blocks
  plusFail _ _ old := old
  zero := fun _ => [0, 0]
  cost x := jac x
  jac x := jac x
  gradNorms _ := some (grad, grad)
  modelChange _ _ := 5
  unscale d := d
  lineSearch _ _ d := d
  inner := none
  norm _ := 1
  dist x y := |(x 0).headD 0 - (y 0).headD 0|
  callback _ := .continue
  time _ := 0

def fStrategy : Strategy Unit (Pt ℚ) (Pt ℚ) ℚ where
  compute _ _ := ((), .step fun _ => [3, 1])
  accepted _ q := if 0 < q then some () else none
  rejected _ _ := ()
  invalid _ := ()
  radius _ := 1

def fOpts : Opts ℚ where
  maxIter := 3
  maxInvalid := 5
  nonmono := false
  maxNonmono := 5
  constrained := true
  lineSearchOn := false
  gradTol := 0
  paramTol := 1 / 100
  funTol := 0
  minRadius := 0
  maxTime := 1000
  minRelDecrease := 1 / 1000
  innerTol := 0
  fixedCost := 0
  big := 1000000
  lowest := -1000000

/-- The cost of a point of the minimizer. -/
def fJac (x : Pt ℚ) : Option ℚ := fCost [x 0]

/-- `Solve` from (a, b). -/
def fSolve (jac : Pt ℚ → Option ℚ) (grad a b : ℚ) :=
  solve fOptions (trEnv fBase (fEnv jac grad) (fun _ => fStrategy) (fun _ => ()) fOpts encPt decPt)
    fProblem (fWorld a b)

/-- What the user sees: verdict, points of the iterations, memory, what the callback saw. -/
def fSeen (r : World (List ℚ) (List (List ℚ)) ×
    Summary (List ℚ) (Iter (Pt ℚ) ℚ) ℚ (List (List ℚ))) :
    Option Term × List (List ℚ) × List ℚ × List (List ℚ) :=
  (r.2.term, r.2.iters.map fun it => it.point 0, r.1.mem 0, r.1.aux)

/-- A solve from the feasible point (1, 1/2): the step (3, 1) is cut off at the upper bound 2. -/
theorem witness_feasible : fSeen (fSolve fJac 1 1 (1 / 2)) =
    (some .convergence, [[1, 1 / 2], [2, 3 / 2]], [2, 3 / 2], [[1, 1 / 2], [2, 3 / 2]]) := by
  decide +kernel

/-- A solve from the point (7, -3), outside the bounds: the first iteration is at its projection
(2, 0), and this is what the callback sees. -/
theorem witness_projects : fSeen (fSolve fJac 1 7 (-3)) =
    (some .convergence, [[2, 0], [2, 1]], [2, 1], [[2, 0], [2, 1]]) := by
  decide +kernel

theorem fPB_sized (b : ℕ) : BoundsSized (fPB b) := by
  unfold fPB
  split
  · exact ⟨fun l h => by simp at h; subst h; rfl, fun l h => by simp at h; subst h; rfl⟩
  · exact ⟨fun l h => by simp at h, fun l h => by simp at h⟩

theorem fSetting (jac : Pt ℚ → Option ℚ) (grad : ℚ) (w : World (List ℚ) (List (List ℚ)))
    (hw : w.mem 1 = [8]) :
    Setting fPB (-1000) 1000 fBase.order (fEnv jac grad) fOpts fProblem w := by
  refine ⟨fun _ => rfl, fun _ f hf => (by cases hf), ?_, ?_, fun b _ => fPB_sized b, by decide +kernel⟩
  · intro red hred
    have : removeFixedBlocks fProblem.isConst w.mem fProblem.prog =
        .ok ⟨⟨[0], [⟨[0], fCost⟩]⟩, [1], 0 + 7⟩ := rfl
    rw [this] at hred
    simp only [Except.ok.injEq] at hred
    subst hred
    decide +kernel
  · decide

theorem fReadOnly : ReadOnly fOptions := by
  intro f hf it m a
  simp only [fOptions, List.mem_singleton] at hf
  rw [hf]

/-- The hypotheses of `solve_feasible` are met. -/
example : fProblem.prog.pblocks.Nodup ∧ (∀ l, (fBase.order l).Perm l) ∧
    Setting fPB (-1000) 1000 fBase.order (fEnv fJac 1) fOpts fProblem (fWorld 1 (1 / 2)) ∧
    ReadOnly fOptions ∧ ∀ b ∈ fProblem.prog.pblocks, InBox (fPB b) ((fWorld 1 (1 / 2)).mem b) := by
  refine ⟨by decide, fun l => List.Perm.refl _, fSetting _ _ _ rfl, fReadOnly, ?_⟩
  intro b hb
  simp only [fProblem, List.mem_cons, List.not_mem_nil, or_false] at hb
  rcases hb with rfl | rfl
  · intro j y hy
    match j with
    | 0 =>
      simp [fWorld] at hy
      subst hy
      refine ⟨fun l h => ?_, fun l h => ?_⟩ <;> simp [fPB, Program.PB.lo?, Program.PB.hi?] at h <;>
        subst h <;> decide +kernel
    | 1 =>
      simp [fWorld] at hy
      subst hy
      refine ⟨fun l h => ?_, fun l h => ?_⟩ <;> simp [fPB, Program.PB.lo?, Program.PB.hi?] at h <;>
        subst h <;> decide +kernel
    | n + 2 => simp [fWorld] at hy
  · intro j y hy
    constructor <;> intro l h <;> simp [fPB, Program.PB.lo?, Program.PB.hi?] at h

/-- Outside the box. -/
theorem not_inBox_7 : ¬ InBox (fPB 0) [7, -3] := by
  intro h
  have := (h 0 7 rfl).2 2 rfl
  exact absurd this (by decide +kernel)

/-- **C58 (finding).**  When the evaluation at the projected initial point fails, `Solve` reports
FAILURE and leaves the initial point in memory, outside the bounds: that it starts within the bounds
is needed in the last part of `solve_feasible`. -/
theorem failure_leaves_infeasible :
    fSeen (fSolve (fun _ => none) 1 7 (-3)) = (some .failure, [], [7, -3], []) ∧
    ¬ InBox (fPB 0) [7, -3] :=
  ⟨by decide +kernel, not_inBox_7⟩

/-- **C58 (finding).**  When no cost is below the largest number, a solve that starts outside the
bounds reports CONVERGENCE, its only iteration is at the projected point, and the memory still holds
the initial point, outside the bounds: `hbig` is needed in `solve_projects`. -/
theorem huge_cost_leaves_infeasible :
    fSeen (fSolve (fun _ => some 1000000) 0 7 (-3)) =
      (some .convergence, [[2, 0]], [7, -3], [[7, -3]]) ∧ ¬ InBox (fPB 0) [7, -3] :=
  ⟨by decide +kernel, not_inBox_7⟩

/-- An inner solve of a block in a box: the environment of `fEnv` with block 0 alone. -/
example : ∃ s, TrustRegion.minimize fOpts (fEnv fJac 1 [0]) fStrategy () (fun _ => [1, 1 / 2]) 4 =
    .done s ∧ Feasible fPB [0] s.params ∧ s.params 0 = [2, 3 / 2] := by
  have hk : Keeps (Feasible fPB [0]) (fEnv fJac 1 [0]) :=
    ⟨fun x d y h => programPlus_feasible (fun b _ => fPB_sized b) h, fun f hf => (by cases hf)⟩
  have hdone : ∃ s, TrustRegion.minimize fOpts (fEnv fJac 1 [0]) fStrategy ()
      (fun _ => [1, 1 / 2]) 4 = .done s ∧ s.params 0 = [2, 3 / 2] := by
    have : (match TrustRegion.minimize fOpts (fEnv fJac 1 [0]) fStrategy ()
        (fun _ => [1, 1 / 2]) 4 with
      | .done s => some (s.params 0)
      | _ => none) = some [2, 3 / 2] := by decide +kernel
    cases h : TrustRegion.minimize fOpts (fEnv fJac 1 [0]) fStrategy () (fun _ => [1, 1 / 2]) 4 with
    | done s => rw [h] at this; exact ⟨s, rfl, Option.some.inj this⟩
    | abort => rw [h] at this; cases this
    | outOfFuel => rw [h] at this; cases this
  obtain ⟨s, h1, h2⟩ := hdone
  refine ⟨s, h1, ?_, h2⟩
  have := (minimize_keeps _ _ _ _ _ _ _ hk (by decide +kernel) (Or.inr rfl) s h1).2.1
  rcases this with h | h
  · rw [h] at h2
    exact absurd h2 (by decide +kernel)
  · exact h

end Ceres.Feasible
