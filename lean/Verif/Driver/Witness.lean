import Verif.Driver.LsSolve
import Verif.TrustRegion.Witness

/-!
# Concrete calls of `Solve` (C53, C54)

Non-vacuity of the theorems, and calls on which plausible stronger claims fail.
-/
namespace Ceres.Driver

open Ceres.TrustRegion (CB Term Opts Iter Strategy wOpts wEnv wStrategy wCost)
open Ceres.LineSearch (LSProblem LSOptions LSRecord)
open Ceres.Program (Prog RB removeFixedBlocks totalCost)

/-- Two residuals: one uses the variable block 0, one the constant block 1; block 2 is used by
none. -/
def wProblem : Problem Nat Rat where
  prog := ⟨[0, 1, 2], [⟨[0], fun l => wCost (l.headD 0)⟩, ⟨[1], fun _ => some 7⟩]⟩
  isConst b := b == 1
  valid _ := true

/-- The memory before the call: block 0 holds 0, block 1 holds 8, the others 9. -/
def wWorld : World Nat (List (Nat × Nat)) :=
  ⟨fun b => if b = 0 then 0 else if b = 1 then 8 else 9, [], false⟩

/-- A user callback that notes the iteration and the content of block 0, and stops the solver in
iteration `n`. -/
def wCallback (n : Nat) (answer : CB) : UserCallback Nat (Iter Nat Rat) (List (Nat × Nat)) :=
  fun it m a => (m, a ++ [(it.iteration, m 0)], if it.iteration = n then answer else .continue)

/-- Options with the state updating callback and one user callback. -/
def wOptions (n : Nat) (answer : CB) : Options Nat (Iter Nat Rat) (List (Nat × Nat)) :=
  ⟨true, false, true, true, [wCallback n answer]⟩

/-- The rest of `Solve`. -/
def wBase : Env Nat (Iter Nat Rat) Rat (List (Nat × Nat)) where
  cudaOk := true
  prepare := id
  setupOk _ := true
  order := id
  minimizer _ _ _ := .done [] .crash
  cost := Iter.cost

/-- The blocks of the points of `TrustRegion.wEnv`: one value in the first block. -/
def wEnc (blocks : List Nat) (x : Nat) : List Nat :=
  match blocks with
  | [] => []
  | _ :: bs => x :: bs.map (fun _ => 0)

def wTr (o : Opts Rat) : Env Nat (Iter Nat Rat) Rat (List (Nat × Nat)) :=
  trEnv wBase (fun _ => wEnv) (fun _ => wStrategy) (fun _ => ()) o wEnc (fun _ l => l.headD 0)

/-- What the user sees. -/
def seen (r : World Nat (List (Nat × Nat)) × Summary Nat (Iter Nat Rat) Rat (List (Nat × Nat))) :
    (Option Term × Rat × Rat × List (Rat × Bool)) × (List Nat × List (Nat × Nat)) :=
  ((r.2.term, r.2.initialCost, r.2.fixedCost,
    r.2.iters.map (fun it => (it.cost, it.stepSuccessful))), [r.1.mem 0, r.1.mem 1, r.1.mem 2], r.1.aux)

/-- Non-vacuity of C53 and C54: three iterations; the callback sees the points 0, 1 and, after a
rejected step, 1 again; the solution 1 is written back; costs include the fixed cost 7. -/
theorem witness_solve :
    seen (solve (wOptions 9 .abort) (wTr wOpts) wProblem wWorld) =
      ((some .noConvergence, 17, 7, [(17, true), (12, true), (4999 / 1000 + 7, false)]),
        ([1, 8, 9], [(0, 0), (1, 1), (2, 1)])) := by
  decide +kernel

/-- The callback stops the solver in iteration 1: with "terminate" the current point is kept, with
"abort" the original memory is restored. -/
theorem witness_solve_stop :
    seen (solve (wOptions 1 .terminateSuccessfully) (wTr wOpts) wProblem wWorld) =
      ((some .userSuccess, 17, 7, [(17, true), (12, true)]), ([1, 8, 9], [(0, 0), (1, 1)])) ∧
    seen (solve (wOptions 1 .abort) (wTr wOpts) wProblem wWorld) =
      ((some .userFailure, 17, 7, [(17, true), (12, true)]), ([0, 8, 9], [(0, 0), (1, 1)])) := by
  constructor <;> decide +kernel

theorem wCost_lt (x : Nat) (c : Rat) (h : wCost x = some c) : c < 1000000 := by
  match x with
  | 0 => simp only [wCost, Option.some.injEq] at h; rw [← h]; decide
  | 1 => simp only [wCost, Option.some.injEq] at h; rw [← h]; decide
  | 2 => simp only [wCost, Option.some.injEq] at h; rw [← h]; decide +kernel
  | n + 3 => simp only [wCost, Option.some.injEq] at h; rw [← h]; decide

/-- The hypotheses of `solve_trust_region` are met by this call. -/
example :
    wProblem.prog.pblocks.Nodup ∧ (∀ l, (wBase.order l).Perm l) ∧
    (∀ blocks x, (wEnc blocks x).length = blocks.length) ∧
    (∀ x c, wEnv.jac x = some c → c < wOpts.big) ∧
    (∀ red, removeFixedBlocks wProblem.isConst wWorld.mem wProblem.prog = .ok red → ∀ x c,
      wEnv.jac x = some c →
      totalCost (writeBack (wBase.order red.prog.pblocks) (wEnc (wBase.order red.prog.pblocks) x)
        wWorld.mem) red.prog.rblocks = some c) ∧
    ReadOnly (wOptions 9 .abort) := by
  refine ⟨by decide, fun l => List.Perm.refl _, ?_, wCost_lt, ?_, ?_⟩
  · intro blocks x
    cases blocks <;> simp [wEnc]
  · intro red hred x c hc
    have : removeFixedBlocks wProblem.isConst wWorld.mem wProblem.prog =
        .ok ⟨⟨[0], [⟨[0], fun l => wCost (l.headD 0)⟩]⟩, [1, 2], 0 + 7⟩ := rfl
    rw [this] at hred
    simp only [Except.ok.injEq] at hred
    subst hred
    simp only [totalCost, RB.eval, wBase, id, wEnc, writeBack, List.map_cons, List.map_nil,
      List.headD_cons, if_true]
    change wCost x = some c at hc
    rw [hc]
    simp
  · intro f hf it m a
    simp only [wOptions, List.mem_singleton] at hf
    rw [hf]
    rfl

/-! ### Finding: best point, not current point -/

/-- Non-monotonic steps. -/
def wNonmono : Opts Rat := 
  { wOpts with
    nonmono := true
    maxIter := 3
    minRelDecrease := 1 / 100000 }

/-- Costs of the points 0, 1, 2, 3: 10, 5, 7, 6. -/
def nCost : Nat → Option Rat
  | 0 => some 10
  | 1 => some 5
  | 2 => some 7
  | _ => some 6

def nTr : Env Nat (Iter Nat Rat) Rat (List (Nat × Nat)) :=
  trEnv wBase (fun _ => 
    { wEnv with
      cost := nCost
      jac := nCost }) (fun _ => wStrategy)
    (fun _ => ()) wNonmono wEnc (fun _ l => l.headD 0)

/-- **C53 (finding).**  With non-monotonic steps the memory a callback sees with
`update_state_every_iteration` is not the current point of the minimizer: the state updating
callback copies the best point so far (trust_region_minimizer.cc:321, 825-829).  Here iteration 2 is
accepted at the point 2, and the callback sees 1. -/
theorem nonmonotonic_callback_sees_best_point :
    (solve (wOptions 9 .abort) nTr wProblem wWorld).2.calls.map
      (fun c => (c.iteration.iteration, c.iteration.stepSuccessful, c.iteration.point,
        c.seen.mem 0)) =
      [(0, true, 0, 0), (0, true, 0, 0), (1, true, 1, 0), (1, true, 1, 1), (2, true, 2, 1),
        (2, true, 2, 1), (3, true, 3, 1), (3, true, 3, 1)] := by
  decide +kernel

/-! ### Finding: gradient check errors leave changed parameters behind -/

/-- Iteration summary number `n` of a run of cost `10 - n`. -/
def gIter (n : Nat) : Iter Nat Rat := ⟨n, true, false, true, 10 - n, 1, 1, 1, 1, 1, 1, n⟩

/-- A minimizer that moves from 0 to 1, evaluates there, at which the gradient checker finds an
error, and converges; `reports`: whether it reports the second iteration, as the trust region
minimizer does, or only records it, as the line search minimizer does. -/
def gEnv (reports : Bool) : Env Nat (Iter Nat Rat) Rat (List (Nat × Nat)) :=
  { wBase with
    minimizer := fun _ _ _ => .initial 10 (.report [0] (gIter 0) (fun _ =>
      .evaluate id (fun _ => true) (fun _ =>
        if reports then .report [1] (gIter 1) (fun _ => .done [1] .convergence)
        else .record (gIter 1) (.done [1] .convergence)))) }

/-- Options with gradient checking and, if `callback`, a user callback that terminates
successfully in iteration 1. -/
def gOptions (callback : Bool) : Options Nat (Iter Nat Rat) (List (Nat × Nat)) :=
  ⟨true, true, false, true, if callback then [wCallback 1 .terminateSuccessfully] else []⟩

/-- **C54 (finding).**  With `check_gradients`, `Solve` can report FAILURE, not usable, and leave
changed parameters in the user's memory: the verdict is overwritten (solver.cc:848-851) after the
solution has been written back (solver.cc:669-672).  It happens if the error is found in the last
evaluation and the callbacks are not called after it (line search, converged), or a user callback,
called before the gradient checking callback, terminates successfully.  Only when the gradient
checking callback gets to abort the run is the memory restored. -/
theorem gradient_error_leaves_changed_memory :
    (∀ callback reports, (callback = true ∨ reports = false) →
      let r := solve (gOptions callback) (gEnv reports) wProblem wWorld
      r.2.term = some .failure ∧ usable r.2.term = false ∧ wWorld.mem 0 = 0 ∧ r.1.mem 0 = 1) ∧
    (let r := solve (gOptions false) (gEnv true) wProblem wWorld
     r.2.term = some .failure ∧ r.1.mem 0 = 0) := by
  refine ⟨?_, by simp only; decide +kernel⟩
  intro callback reports h
  simp only
  cases callback <;> cases reports
  · decide +kernel
  · simp at h
  · decide +kernel
  · decide +kernel

/-! ### Line search -/

noncomputable section

/-- The problem `x^2/2` of `LineSearch.squareProblem` as a problem of `Solve`, block 0 being
variable. -/
def qProblem : Problem ℝ ℝ where
  prog := ⟨[0, 1], [⟨[0], fun l => some (l.headD 0 ^ 2 / 2)⟩, ⟨[1], fun _ => some 7⟩]⟩
  isConst b := b == 1
  valid _ := true

def qBase : Env ℝ (LSRecord ℝ) ℝ Unit where
  cudaOk := true
  prepare := id
  setupOk _ := true
  order := id
  minimizer _ _ _ := .done [] .crash
  cost := LSRecord.cost

def qEnc (blocks : List Nat) (x : ℝ) : List ℝ :=
  match blocks with
  | [] => []
  | _ :: bs => x :: bs.map (fun _ => 0)

def qOptions (n : ℕ) : LSOptions := ⟨.lbfgs 20 true, n, 5, 1 / 10 ^ 10, 1 / 10 ^ 8, 1 / 10 ^ 6⟩

def qEnv : Env ℝ (LSRecord ℝ) ℝ Unit :=
  lsEnv qBase LineSearch.tryOnce (fun _ => LineSearch.squareProblem) (qOptions 0) (fun _ => false)
    qEnc (fun _ l => l.headD 0)

/-- One user callback. -/
def qUser : Options ℝ (LSRecord ℝ) Unit := ⟨true, false, true, true, [fun _ m a => (m, a, .continue)]⟩

theorem qReduced (x : ℝ) : removeFixedBlocks qProblem.isConst (fun _ => x) qProblem.prog =
    .ok ⟨⟨[0], [⟨[0], fun l => some (l.headD 0 ^ 2 / 2)⟩]⟩, [1], 0 + 7⟩ := rfl

theorem qSolve (x : ℝ) : solve qUser qEnv qProblem ⟨fun _ => x, (), false⟩ =
    minimize qUser qEnv (0 + 7) (-1) [0] ⟨fun _ => x, (), false⟩ := by
  unfold solve
  rw [if_neg (by simp [qUser]), if_neg (by simp [qEnv, lsEnv, qBase]), if_neg (by simp [qProblem])]
  simp only [qReduced]
  rw [if_neg (by simp), if_neg (by simp [qEnv, lsEnv, qBase])]
  rfl

/-- **C53 (finding).**  The line search minimizer started at a point where the gradient tolerance
is already met records no iteration and calls no callback at all
(line_search_minimizer.cc:149-158), not even the one of iteration 0. -/
theorem line_search_converged_start_calls_no_callback :
    (solve qUser qEnv qProblem ⟨fun _ => 0, (), false⟩).2.term = some .convergence ∧
    (solve qUser qEnv qProblem ⟨fun _ => 0, (), false⟩).2.iters = [] ∧
    (solve qUser qEnv qProblem ⟨fun _ => 0, (), false⟩).2.calls = [] := by
  have h : (0 : ℝ) ≤ 1 / 10 ^ 10 := by positivity
  have h' : (0 : ℝ) ≤ (10 ^ 10)⁻¹ := by positivity
  rw [qSolve]
  simp [minimize, qUser, minimizerCallbacks, userCallbacks, qEnv, lsEnv, qBase, lsMinimizer,
    LineSearch.squareProblem, LSProblem.norms, qOptions, exec, Own.term, summaryFinalCost]

/-- Non-vacuity of `solve_line_search`: started at 4, one iteration is reported. -/
theorem witness_line_search :
    (solve qUser qEnv qProblem ⟨fun _ => 4, (), false⟩).2.term = some .noConvergence ∧
    (solve qUser qEnv qProblem ⟨fun _ => 4, (), false⟩).2.iters.map LSRecord.cost = [15] ∧
    (solve qUser qEnv qProblem ⟨fun _ => 4, (), false⟩).2.calls.map
      (fun c => (c.kind, c.seen.mem 0)) = [(.stateUpdating, 4), (.user 0, 4)] := by
  have h : ¬ (4 : ℝ) ≤ (10 ^ 10)⁻¹ := by norm_num
  rw [qSolve]
  simp [minimize, qUser, minimizerCallbacks, userCallbacks, qEnv, lsEnv, qBase, lsMinimizer,
    LineSearch.squareProblem, LSProblem.norms, qOptions, h, lsRun, exec, Own.term, runCallbacks,
    stateUpdatingCallback, lsStep, ownOfLs, addFixed, qEnc, writeBack]
  norm_num

/-- The hypotheses of `solve_line_search` that depend on the problem are met by this call (for
those on the search, the evaluator and the options see the end of `LineSearch.Minimizer`). -/
example (x₀ : ℝ) :
    qProblem.prog.pblocks.Nodup ∧ (∀ l, (qBase.order l).Perm l) ∧
    (∀ blocks x, (qEnc blocks x).length = blocks.length) ∧
    (∀ red, removeFixedBlocks qProblem.isConst (fun _ => x₀) qProblem.prog = .ok red →
      qEnc (qBase.order red.prog.pblocks) (((qBase.order red.prog.pblocks).map
        (fun _ => x₀)).headD 0) = (qBase.order red.prog.pblocks).map (fun _ => x₀)) ∧
    (∀ red, removeFixedBlocks qProblem.isConst (fun _ => x₀) qProblem.prog = .ok red → ∀ x c g,
      LineSearch.squareProblem.eval x true = some (.fin c, g) →
      totalCost (writeBack (qBase.order red.prog.pblocks) (qEnc (qBase.order red.prog.pblocks) x)
        (fun _ => x₀)) red.prog.rblocks = some c) ∧
    ReadOnly qUser := by
  refine ⟨by decide, fun l => List.Perm.refl _, ?_, ?_, ?_, ?_⟩
  · intro blocks x
    cases blocks <;> simp [qEnc]
  · intro red hred
    rw [qReduced] at hred
    simp only [Except.ok.injEq] at hred
    subst hred
    rfl
  · intro red hred x c g hc
    rw [qReduced] at hred
    simp only [Except.ok.injEq] at hred
    subst hred
    simp only [LineSearch.squareProblem, Option.some.injEq, Prod.mk.injEq,
      LineSearch.Ext.fin.injEq] at hc
    simp [totalCost, RB.eval, qBase, qEnc, writeBack, ← hc.1]
  · intro f hf it m a
    simp only [qUser, List.mem_singleton] at hf
    rw [hf]

end

end Ceres.Driver
