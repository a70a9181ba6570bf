import Verif.Inner.Descent
import Verif.Inner.Setup
import Verif.TrustRegion.Witness

/-!
# C56: concrete inner iterations

Non-vacuity of the theorems, and what the code does outside their hypotheses.
-/
namespace Ceres.Inner

open Ceres.Graph (Prog Groups GroupsOp)

/-! ## A scheduler: parallel runs exist -/

variable {B α : Type} [DecidableEq B]

/-- The choices of a schedule. -/
inductive Act where
  | poolStart
  | go (w : ℕ)
  | unblock
  deriving DecidableEq

/-- The step that a choice leads to. -/
def act (c : Parallel.Cfg) (task : ℕ → ℕ → Code B α) (s : ParState B α) : Act → Option (ParState B α)
  | .poolStart =>
    match s.par.queued with
    | 0 => none
    | n + 1 => some { s with par := { s.par with
        queued := n
        workers := s.par.workers ++ [.begin] } }
  | .go w =>
    match s.par.workers[w]? with
    | some .begin => some { s with par := { s.par with
        threadCtr := s.par.threadCtr + 1
        workers := s.par.workers.set w
          (if c.threads ≤ s.par.threadCtr then .done else .gotId s.par.threadCtr) } }
    | some (.gotId tid) => some { s with par := { s.par with
        workers := s.par.workers.set w
          (if tid + 1 < c.threads ∧ s.par.blockCtr < c.blocks then .spawn tid else .loop tid 0) } }
    | some (.spawn tid) => some { s with par := { s.par with
        queued := s.par.queued + 1
        workers := s.par.workers.set w (.loop tid 0) } }
    | some (.loop tid jobs) => some { s with par := { s.par with
        blockCtr := s.par.blockCtr + 1
        workers := s.par.workers.set w
          (if c.blocks ≤ s.par.blockCtr then .finishing jobs
           else .segment tid (jobs + 1) (c.blockStart s.par.blockCtr) (c.blockEnd s.par.blockCtr)) } }
    | some (.segment tid jobs i stop) =>
      if i = stop then some { s with par := { s.par with
        workers := s.par.workers.set w (.loop tid jobs) } }
      else some
        { s with
          par := { s.par with workers := s.par.workers.set w (.calling tid jobs i stop) }
          code := fun w' => if w' = w then task tid i else s.code w' }
    | some (.calling tid jobs i stop) =>
      match s.code w with
      | .ret => some { s with par := { s.par with
          log := s.par.log ++ [(tid, i)]
          workers := s.par.workers.set w (.segment tid jobs (i + 1) stop) } }
      | k => (k.step s.mem).map fun r =>
          { s with
            mem := r.2
            code := fun w' => if w' = w then r.1 else s.code w' }
    | some (.finishing jobs) => some { s with par := { s.par with
        finished := s.par.finished + jobs
        aborted := s.par.aborted || (jobs != 0 && decide (c.blocks < s.par.finished + jobs))
        workers := s.par.workers.set w .done } }
    | some .done => none
    | none => none
  | .unblock =>
    if s.par.workers[0]? = some .done ∧ s.par.finished = c.blocks ∧ s.par.returned = false then
      some { s with par := { s.par with returned := true } }
    else none

theorem calling_set {s p : Parallel.State} {w : ℕ} {old new : Parallel.PC}
    (hw : s.workers[w]? = some old) (hp : p.workers = s.workers.set w new)
    (h1 : ∀ tid jobs i stop, old ≠ .calling tid jobs i stop)
    (h2 : ∀ tid jobs i stop, new ≠ .calling tid jobs i stop) (w' tid jobs i stop : ℕ) :
    Calling p w' tid jobs i stop ↔ Calling s w' tid jobs i stop := by
  unfold Calling
  rw [hp, List.getElem?_set]
  by_cases h : w = w'
  · subst h
    have hlt := (List.getElem?_eq_some_iff.1 hw).1
    simp only [if_pos, hlt, hw, Option.some.injEq]
    exact ⟨fun h => absurd h (h2 _ _ _ _), fun h => absurd h (h1 _ _ _ _)⟩
  · rw [if_neg h]

theorem act_sound {c : Parallel.Cfg} {task : ℕ → ℕ → Code B α} {s s' : ParState B α} {a : Act}
    (h : act c task s a = some s') : ParStep c task s s' := by
  unfold act at h
  cases a with
  | poolStart =>
    simp only at h
    cases hq : s.par.queued with
    | zero => rw [hq] at h; simp at h
    | succ n =>
      rw [hq] at h
      simp only [Option.some.injEq] at h
      subst h
      refine .other s _ (.poolStart s.par n hq) rfl ?_
      intro w tid jobs i stop
      unfold Calling
      by_cases hw : w < s.par.workers.length
      · rw [List.getElem?_append_left hw]
      · rw [List.getElem?_append_right (by omega)]
        constructor
        · intro h
          have := List.mem_of_getElem? h
          simp at this
        · intro h
          exact absurd (List.getElem?_eq_some_iff.1 h).1 hw
  | go w =>
    simp only at h
    split at h
    · rename_i hw
      simp only [Option.some.injEq] at h
      subst h
      refine .other s _ (.fetchId s.par w hw) rfl (calling_set hw rfl (by simp) ?_)
      intro tid jobs i stop; split <;> simp
    · rename_i tid hw
      simp only [Option.some.injEq] at h
      subst h
      refine .other s _ (.test s.par w tid hw) rfl (calling_set hw rfl (by simp) ?_)
      intro tid jobs i stop; split <;> simp
    · rename_i tid hw
      simp only [Option.some.injEq] at h
      subst h
      exact .other s _ (.addTask s.par w tid hw) rfl (calling_set hw rfl (by simp) (by simp))
    · rename_i tid jobs hw
      simp only [Option.some.injEq] at h
      subst h
      refine .other s _ (.fetchBlock s.par w tid jobs hw) rfl (calling_set hw rfl (by simp) ?_)
      intro tid jobs i stop; split <;> simp
    · rename_i tid jobs i stop hw
      by_cases he : i = stop
      · rw [if_pos he] at h
        simp only [Option.some.injEq] at h
        subst h
        subst he
        exact .other s _ (.endSegment s.par w tid jobs i hw) rfl
          (calling_set hw rfl (by simp) (by simp))
      · rw [if_neg he] at h
        simp only [Option.some.injEq] at h
        subst h
        exact .call s w tid jobs i stop hw he
    · rename_i tid jobs i stop hw
      split at h
      · rename_i hr
        simp only [Option.some.injEq] at h
        subst h
        exact .ret s w tid jobs i stop hw hr
      · cases hk : (s.code w).step s.mem with
        | none => rw [hk] at h; simp at h
        | some r =>
          rw [hk] at h
          simp only [Option.map_some, Option.some.injEq] at h
          subst h
          exact .access s w tid jobs i stop r.1 r.2 hw hk
    · rename_i jobs hw
      simp only [Option.some.injEq] at h
      subst h
      exact .other s _ (.finish s.par w jobs hw) rfl (calling_set hw rfl (by simp) (by simp))
    · simp at h
    · simp at h
  | unblock =>
    simp only at h
    split at h
    · rename_i hc
      simp only [Option.some.injEq] at h
      subst h
      exact .other s _ (.unblock s.par hc.1 hc.2.1 hc.2.2) rfl (by intros; rfl)
    · simp at h

/-- A schedule; choices that are not possible are skipped. -/
def acts (c : Parallel.Cfg) (task : ℕ → ℕ → Code B α) (s : ParState B α) (as : List Act) :
    ParState B α :=
  as.foldl (fun s a => (act c task s a).getD s) s

theorem acts_sound {c : Parallel.Cfg} {task : ℕ → ℕ → Code B α} {m : Mem B α} (as : List Act) :
    ∀ {s : ParState B α}, ParReach c task m s → ParReach c task m (acts c task s as) := by
  induction as with
  | nil => intro s hs; exact hs
  | cons a as ih =>
    intro s hs
    unfold acts
    rw [List.foldl_cons]
    cases ha : act c task s a with
    | none => exact ih hs
    | some t => exact ih (.step s t hs (act_sound ha))

/-! ## A program with three blocks -/

/-- Residual blocks `x₀ - x₂`, `x₁ + x₂`, `x₂ - 1`. -/
def wProg : Prog ℕ := ⟨[0, 1, 2], fun _ => false, [[0, 2], [1, 2], [2]]⟩

/-- An evaluation fails when the cost is too high. -/
def bounded (c : ℚ) : Option ℚ := if c < 1000000 then some c else none

def wCosts : ℕ → (ℕ → ℚ) → Option ℚ
  | 0, x => bounded ((x 0 - x 2) ^ 2)
  | 1, x => bounded ((x 1 + x 2) ^ 2)
  | _, x => bounded ((x 2 - 1) ^ 2)

theorem bounded_lt {c d : ℚ} (h : bounded c = some d) : d < 1000000 := by
  unfold bounded at h
  by_cases hc : c < 1000000
  · rw [if_pos hc, Option.some.injEq] at h; rw [← h]; exact hc
  · rw [if_neg hc] at h; simp at h

theorem wCosts_own : DependsOnOwn wProg wCosts := by
  intro r ps h x y hxy
  match r, h with
  | 0, h =>
    simp only [wProg, List.getElem?_cons_zero, Option.some.injEq] at h
    subst h
    simp [wCosts, hxy 0 (by simp), hxy 2 (by simp)]
  | 1, h =>
    simp only [wProg, List.getElem?_cons_succ, List.getElem?_cons_zero, Option.some.injEq] at h
    subst h
    simp [wCosts, hxy 1 (by simp), hxy 2 (by simp)]
  | 2, h =>
    simp only [wProg, List.getElem?_cons_succ, List.getElem?_cons_zero, Option.some.injEq] at h
    subst h
    simp [wCosts, hxy 2 (by simp)]
  | r + 3, h => simp [wProg] at h

/-! ## Solves of one block, by Newton steps -/

/-- The derivative and the second derivative of a quadratic cost. -/
def slope (c : ℚ → Option ℚ) (y : ℚ) : ℚ := (((c (y + 1)).getD 0) - ((c (y - 1)).getD 0)) / 2

def bend (c : ℚ → Option ℚ) (y : ℚ) : ℚ :=
  ((c (y + 1)).getD 0) - 2 * ((c y).getD 0) + ((c (y - 1)).getD 0)

def oneEnv (c : ℚ → Option ℚ) : TrustRegion.Env ℚ ℚ ℚ where
  plus x d := some (x + d)
  plusFail _ _ old := old
  zero := 0
  cost := c
  jac := c
  gradNorms y := some (|slope c y|, |slope c y|)
  modelChange y d := ((c y).getD 0) - ((c (y + d)).getD 0)
  unscale d := d
  lineSearch _ _ d := d
  inner := none
  norm x := |x|
  dist x y := |x - y|
  callback _ := .continue
  time _ := 0

def oneStrategy (c : ℚ → Option ℚ) : TrustRegion.Strategy Unit ℚ ℚ ℚ where
  compute _ y := ((), .step (-(slope c y / bend c y)))
  accepted _ q := if 0 < q then some () else none
  rejected _ _ := ()
  invalid _ := ()
  radius _ := 1

def oneOpts : TrustRegion.Opts ℚ := { TrustRegion.wOpts with big := 4000000 }

def oneRun (c : ℚ → Option ℚ) (y : ℚ) : TrustRegion.Outcome Unit ℚ ℚ ℚ :=
  TrustRegion.minimize oneOpts (oneEnv c) (oneStrategy c) () y 3

theorem oneRun_done (c : ℚ → Option ℚ) (y : ℚ) : ∃ s, oneRun c y = .done s := by
  refine TrustRegion.minimize_never_aborts oneOpts (oneEnv c) (oneStrategy c) () y 3
    (fun _ _ h => h) (by decide +kernel) (by decide +kernel) ?_ (by decide)
  intro st q hq
  simp [oneStrategy, hq]

def oneBest (c : ℚ → Option ℚ) (y : ℚ) : ℚ :=
  match oneRun c y with
  | .done s => s.params
  | _ => y

/-- The solves: look at the other blocks, evaluate at a point of a buffer, look at the block itself,
store the result. -/
def wSolver : ℕ → List ℕ → Solver ℚ
  | 0, _ => .look 0 1 fun v2 => .loadX fun y => .setState (y + 1) <| .own fun v =>
      .storeX (oneBest (fun y => costOf wCosts [0] (Function.update (Function.update
        (fun _ => 0) 2 v2.value) 0 y)) (v.value - 1)) .done
  | 1, _ => .look 0 1 fun v2 => .loadX fun y =>
      .storeX (oneBest (fun y => costOf wCosts [1] (Function.update (Function.update
        (fun _ => 0) 2 v2.value) 1 y)) y) .done
  | 2, _ => .look 0 0 fun v0 => .look 1 0 fun v1 => .own fun v =>
      .storeX (oneBest (fun y => costOf wCosts [0, 1, 2] (Function.update (Function.update
        (Function.update (fun _ => 0) 1 v1.value) 0 v0.value) 2 y)) v.value) .done
  | _, _ => .loadX fun y => .storeX (oneBest (fun _ => some 0) y) .done

theorem wSolver_total : NeverAborts wProg wSolver := by
  intro b others x
  match b with
  | 0 => simp [wSolver, Solver.run, paramOf, residualsOf, wProg, List.range_succ]
  | 1 => simp [wSolver, Solver.run, paramOf, residualsOf, wProg, List.range_succ]
  | 2 => simp [wSolver, Solver.run, paramOf, residualsOf, wProg, List.range_succ]
  | b + 3 => simp [wSolver, Solver.run]

theorem residualsOf_wProg : residualsOf wProg 0 = [0] ∧ residualsOf wProg 1 = [1] ∧
    residualsOf wProg 2 = [0, 1, 2] := by
  refine ⟨?_, ?_, ?_⟩ <;> rfl

theorem costOf_bound : ∀ (rs : List ℕ) (x : ℕ → ℚ) c, rs.length ≤ 3 →
    costOf wCosts rs x = some c → c < 4000000 := by
  have key : ∀ (rs : List ℕ) (x : ℕ → ℚ) c, costOf wCosts rs x = some c →
      c ≤ 1000000 * rs.length := by
    intro rs x
    induction rs with
    | nil => intro c h; simp [costOf] at h; simp [← h]
    | cons r rs ih =>
      intro c h
      simp only [costOf] at h
      cases hr : wCosts r x with
      | none => rw [hr] at h; simp at h
      | some d =>
        rw [hr, Option.bind_some] at h
        cases hrs : costOf wCosts rs x with
        | none => rw [hrs] at h; simp at h
        | some e =>
          rw [hrs, Option.map_some, Option.some.injEq] at h
          have h1 := ih e hrs
          have h2 : d < 1000000 := by
            match r, hr with
            | 0, hr => exact bounded_lt hr
            | 1, hr => exact bounded_lt hr
            | r + 2, hr => exact bounded_lt hr
          rw [← h, List.length_cons]
          push_cast
          linarith
  intro rs x c hl h
  have := key rs x c h
  have h3 : (rs.length : ℚ) ≤ 3 := by exact_mod_cast hl
  linarith

/-- The solves of the example are trust region minimisations, whatever the index and the offsets of
the blocks are. -/
theorem wSolver_minimizes (cell : ℕ → Cell ℚ) : Minimizes wProg wCosts (best wProg wSolver cell) := by
  intro b x
  have key : ∀ (c : ℚ → Option ℚ), (∀ y, c y = costOf wCosts (residualsOf wProg b)
      (Function.update x b y)) → best wProg wSolver cell b x = oneBest c (x b) →
      (residualsOf wProg b).length ≤ 3 → ∃ (S D : Type) (o : TrustRegion.Opts ℚ)
        (env : TrustRegion.Env ℚ D ℚ)
    (strategy : TrustRegion.Strategy S ℚ D ℚ) (s0 : S) (fuel : ℕ) (s : TrustRegion.St S ℚ D ℚ),
    (∀ y, env.cost y = costOf wCosts (residualsOf wProg b) (Function.update x b y)) ∧
    TrustRegion.Consistent env ∧ o.constrained = false ∧
    (∀ y c, env.jac y = some c → c < o.big) ∧ o.maxIter + 1 ≤ fuel ∧
    TrustRegion.minimize o env strategy s0 (x b) fuel = .done s ∧
    best wProg wSolver cell b x = s.params := by
    intro c hc hb hl
    obtain ⟨s, hs⟩ := oneRun_done c (x b)
    refine ⟨Unit, ℚ, oneOpts, oneEnv c, oneStrategy c, (), 3, s, hc, fun _ _ h => h, rfl, ?_,
      by decide, hs, ?_⟩
    · intro y d h
      exact costOf_bound _ _ _ hl ((hc y).symm.trans h)
    · rw [hb]; unfold oneBest; rw [hs]
  match b with
  | 0 =>
    refine key (fun y => costOf wCosts [0] (Function.update (Function.update
        (fun _ => 0) 2 (x 2)) 0 y)) (fun y => ?_) ?_ (by rw [residualsOf_wProg.1]; simp)
    · rw [residualsOf_wProg.1]; simp [costOf, wCosts]
    · unfold best
      rw [residualsOf_wProg.1]
      simp [wSolver, Solver.run, paramOf, wProg, viewsAt]
  | 1 =>
    refine key (fun y => costOf wCosts [1] (Function.update (Function.update
        (fun _ => 0) 2 (x 2)) 1 y)) (fun y => ?_) ?_ (by rw [residualsOf_wProg.2.1]; simp)
    · rw [residualsOf_wProg.2.1]; simp [costOf, wCosts]
    · unfold best
      rw [residualsOf_wProg.2.1]
      simp [wSolver, Solver.run, paramOf, wProg, viewsAt]
  | 2 =>
    refine key (fun y => costOf wCosts [0, 1, 2] (Function.update (Function.update
        (Function.update (fun _ => 0) 1 (x 1)) 0 (x 0)) 2 y)) (fun y => ?_) ?_
        (by rw [residualsOf_wProg.2.2]; simp)
    · rw [residualsOf_wProg.2.2]; simp [costOf, wCosts]
    · unfold best
      rw [residualsOf_wProg.2.2]
      simp [wSolver, Solver.run, paramOf, wProg, viewsAt]
  | b + 3 =>
    have h0 : residualsOf wProg (b + 3) = [] := by
      simp [residualsOf, wProg, List.range_succ]
    refine key (fun _ => some 0) (fun y => ?_) ?_ (by rw [h0]; simp)
    · rw [h0]; rfl
    · simp [best, h0, wSolver, Solver.run]

/-! ## Orderings, set-up, memory -/

/-- The block `b` is at address `10 b`. -/
def wKnown (v : ℕ) : Option ℕ := if v % 10 = 0 then some (v / 10) else none

theorem wAddressed : Addressed wKnown fun b => 10 * b := by
  constructor
  · intro b; simp [wKnown]
  · intro v b h
    unfold wKnown at h
    by_cases hv : v % 10 = 0
    · rw [if_pos hv, Option.some.injEq] at h; omega
    · rw [if_neg hv] at h; simp at h

theorem wProg_wf : wProg.WF := ⟨by decide, by decide, by decide⟩

/-- Blocks 0 and 1 in group 0, block 2 in group 1. -/
def wGroups : Groups ℕ :=
  [GroupsOp.add 0 0, .add 10 0, .add 20 1].foldl GroupsOp.run .empty

theorem wGroups_wf : wGroups.WF := Graph.groups_history_wf _

theorem wGroupsOf : groupsOf wKnown wGroups = [[0, 1], [2]] := by decide +kernel

theorem wIndependent : Independent wProg [[0, 1], [2]] := by
  rw [← wGroupsOf, ← isOrderingValid_iff wProg_wf wAddressed wGroups_wf]
  decide +kernel

/-- Non-vacuity of `setupInner_given`, where the inner iterations are on. -/
theorem wSetup : ∃ S, setupInner Graph.exSort 3 true false wProg wKnown (fun b => 10 * b) []
    (some wGroups) = (.on S, some wGroups) ∧ S.Serves wProg [[0, 1], [2]] ∧ S.blocks = [0, 1, 2] ∧
    S.offsets = [0, 2, 3] := by
  obtain ⟨S, h1, h2⟩ := init_serves wProg_wf wAddressed wGroups_wf (by
    intro v hv
    have : v ∈ [0, 10, 20] := by
      obtain ⟨g, hg, hvg⟩ := (mem_groups wGroups_wf).2 hv
      have hl : wGroups.groupToElements = [(0, [0, 10]), (1, [20])] := by decide +kernel
      rw [hl] at hg
      simp at hg
      rcases hg with rfl | rfl <;> simp at hvg <;> simp [hvg]
      omega
    simp at this
    rcases this with rfl | rfl | rfl
    · exact ⟨0, by decide, rfl⟩
    · exact ⟨1, by decide, rfl⟩
    · exact ⟨2, by decide, rfl⟩)
  rw [wGroupsOf] at h2
  refine ⟨S, ?_, h2, ?_, ?_⟩
  · have hr : (wGroups.removeAll []).1 = wGroups := rfl
    unfold setupInner
    simp only [hr, h1]
    rfl
  · obtain ⟨⟨rest, s1, s2, s3⟩, s4⟩ := h2
    have := s2.length_eq
    rw [s1] at this
    simp [wProg] at this
    rw [s1, this]; rfl
  · obtain ⟨⟨rest, s1, s2, s3⟩, s4⟩ := h2
    have := s2.length_eq
    rw [s1] at this
    simp [wProg] at this
    rw [s3, this]; rfl

/-- Memory as the trust region minimizer leaves it: values 3, 5, 0 in the array, the states of the
blocks elsewhere. -/
def wMem : Mem ℕ ℚ where
  cell b := ⟨.buffer 7, false, b, b, b⟩
  array o := if o = 0 then 3 else if o = 1 then 5 else 0

theorem wCallable : Callable wProg wMem fun _ => 7 :=
  ⟨fun _ _ => rfl, by intro a _ b _ h; simpa [wMem] using h, fun _ _ => rfl⟩

/-- The set-up of the example. -/
def wS : Setup ℕ := ⟨[0, 1, 2], [0, 2, 3], fun b => if b < 3 then some b else none, [[0], [1], [0, 1, 2]]⟩

theorem wS_serves : wS.Serves wProg [[0, 1], [2]] :=
  ⟨⟨[], rfl, List.Perm.refl _, rfl⟩, rfl⟩

def wFrozen : Mem ℕ ℚ := (freezeAll [0, 1, 2] wMem).getD wMem

/-- Two workers in the group of blocks 0 and 1, taking turns at every step. -/
def wSchedule : List Act :=
  [.go 0, .go 0, .go 0, .poolStart] ++ (List.replicate 26 [Act.go 0, Act.go 1]).flatten ++ [.unblock]

/-- The state after the first `n` choices. -/
def wAfter (n : ℕ) : ParState ℕ ℚ :=
  acts ⟨0, 2, 2, Parallel.numWorkBlocks 0 2 2 1⟩ (task wProg wS 2 wSolver)
    ⟨Parallel.init, wFrozen, fun _ => .ret⟩ (wSchedule.take n)

/-- Both workers are inside the function at the same time. -/
theorem wOverlap : (wAfter 20).par.workers =
    [.calling 0 1 0 1, .calling 1 1 1 2] := by decide +kernel

theorem wReturned : (wAfter 60).par.returned = true := by decide +kernel

/-- Non-vacuity of `minimize_result` and `minimize_descends`: an execution with two threads, whose
accesses to memory alternate. -/
theorem wRun : ∃ r, MinimizeRun wProg wS 2 wSolver wMem r := by
  have hpar : ForRun (task wProg wS 2 wSolver) 0 2 2 wFrozen (some (wAfter 60).mem) :=
    .parallel _ (by decide) (by decide) (by decide) (acts_sound _ (.init _)) wReturned
  have hseq := ForRun.sequential (task := task wProg wS 2 wSolver) (start := 2) (stop := 3)
    (threads := 1) (m := (wAfter 60).mem) (by decide) (by decide) (Or.inl rfl)
  cases hr : seqRun (task wProg wS 2 wSolver) (List.range' 2 (3 - 2)) (wAfter 60).mem with
  | none =>
    rw [hr] at hseq
    exact ⟨_, .run wFrozen none rfl (.run 0 2 [3] _ _ _ (by decide) hpar
      (.abort 2 3 [] _ (by decide) hseq))⟩
  | some m' =>
    rw [hr] at hseq
    exact ⟨_, .run wFrozen (some m') rfl (.run 0 2 [3] _ _ _ (by decide) hpar
      (.run 2 3 [] _ m' _ (by decide) hseq (.last 3 _)))⟩

/-- What every execution of the example computes: first `x₀ = x₂` and `x₁ = -x₂`, then the best `x₂`
for these.  The cost falls from 35 to 2/3. -/
theorem wResult {r : Option (Mem ℕ ℚ)} (h : MinimizeRun wProg wS 2 wSolver wMem r) :
    ∃ m', r = some m' ∧ m'.array 0 = 0 ∧ m'.array 1 = 0 ∧ m'.array 2 = 1 / 3 ∧
      total wProg wCosts (valuesAt wProg wMem fun _ => 7) = some 35 ∧
      total wProg wCosts (valuesAt wProg m' fun _ => 7) = some (2 / 3) := by
  obtain ⟨m', h1, h2, -, h4, -⟩ := minimize_result (by decide) wS_serves wIndependent (by decide)
    wSolver_total wCallable h
  have e0 : m'.array 0 = 0 := (h2 0 (by decide)).trans (by decide +kernel)
  have e1 : m'.array 1 = 0 := (h2 1 (by decide)).trans (by decide +kernel)
  have e2 : m'.array 2 = 1 / 3 := (h2 2 (by decide)).trans (by decide +kernel)
  refine ⟨m', h1, e0, e1, e2, by decide +kernel, ?_⟩
  have v0 : valuesAt wProg m' (fun _ => 7) 0 = 0 := by
    unfold valuesAt
    rw [if_pos (by decide), h4 0 (by decide)]; exact e0
  have v1 : valuesAt wProg m' (fun _ => 7) 1 = 0 := by
    unfold valuesAt
    rw [if_pos (by decide), h4 1 (by decide)]; exact e1
  have v2 : valuesAt wProg m' (fun _ => 7) 2 = 1 / 3 := by
    unfold valuesAt
    rw [if_pos (by decide), h4 2 (by decide)]; exact e2
  change costOf wCosts [0, 1, 2] _ = _
  simp only [costOf, wCosts, v0, v1, v2, bounded]
  norm_num

/-! ## Outside the hypotheses -/

/-- **C56 (finding).**  An inner iteration ordering with an address that is not a parameter block of
the problem passes `IsOrderingValid`; `Init` then dereferences the end iterator of the parameter map
(coordinate_descent_minimizer.cc:86). -/
theorem unknown_address_undefined :
    isOrderingValid wProg (fun b => 10 * b)
      ([GroupsOp.add 0 0, .add 13 1].foldl GroupsOp.run .empty) = true ∧
    (setupInner Graph.exSort 3 true false wProg wKnown (fun b => 10 * b) []
      (some ([GroupsOp.add 0 0, .add 13 1].foldl GroupsOp.run .empty))).1 = .undefined := by
  have hwf : (([GroupsOp.add 0 0, .add 13 1].foldl GroupsOp.run .empty) : Groups ℕ).WF :=
    Graph.groups_history_wf _
  have hv : isOrderingValid wProg (fun b => 10 * b)
      ([GroupsOp.add 0 0, .add 13 1].foldl GroupsOp.run .empty) = true := by decide +kernel
  refine ⟨hv, ?_⟩
  have hi := (init_defined_iff wProg wKnown hwf (fun b => 10 * b)).2 ⟨13, by decide +kernel, rfl⟩
  unfold setupInner
  have hr : ((([GroupsOp.add 0 0, .add 13 1].foldl GroupsOp.run .empty) : Groups ℕ).removeAll
      []).1 = [GroupsOp.add 0 0, .add 13 1].foldl GroupsOp.run .empty := rfl
  have hn : (([GroupsOp.add 0 0, .add 13 1].foldl GroupsOp.run .empty) : Groups ℕ).numElements ≠ 0 := by
    decide +kernel
  have hl : wProg.blocks.length ≠ 1 := by decide
  simp only [hr, if_neg hn, if_neg hl, hv, hi, Bool.not_true, Bool.false_eq_true, if_false]

/-- The three blocks at the addresses 0, 10, 20. -/
def fKnown (v : ℕ) : Option (Fin 3) :=
  if v = 0 then some 0 else if v = 10 then some 1 else if v = 20 then some 2 else none

def fUser (b : Fin 3) : ℕ := 10 * b.val

theorem fAddressed : Addressed fKnown fUser := by
  constructor
  · decide
  · intro v b h
    unfold fKnown at h
    by_cases h0 : v = 0
    · subst h0; simp at h; subst h; rfl
    · by_cases h1 : v = 10
      · subst h1; simp at h; subst h; rfl
      · by_cases h2 : v = 20
        · subst h2; simp at h; subst h; rfl
        · simp [h0, h1, h2] at h

/-- The program of the example when block 1 is constant. -/
def fProg : Prog (Fin 3) := ⟨[0, 2], fun b => decide (b = 1), [[0, 2], [1, 2], [2]]⟩

/-- **C56 (finding).**  `Solve` takes the removed blocks out of the user's own ordering object, which
`Solver::Options` shares by pointer (trust_region_preprocessor.cc:315): if block 1 (address 10) is
constant in one call, it is no longer in the ordering for the next call, in which it may be
variable.  (Also the non-vacuity of `setupInner_given` with removed blocks: the inner iterations are
on for blocks 0 and 2.) -/
theorem ordering_object_changed :
    ∃ G' S groups, setupInner (fun _ => []) 3 true false fProg fKnown fUser [10] (some wGroups) =
        (.on S, some G') ∧ S.Serves fProg groups ∧ (∀ b, b ∈ groups.flatten ↔ b = 0 ∨ b = 2) ∧
      0 ≤ wGroups.groupId 10 ∧ G'.groupId 10 = -1 := by
  have hid : ∀ v, 0 ≤ wGroups.groupId v → v = 0 ∨ v = 10 ∨ v = 20 := by
    intro v hv
    obtain ⟨g, hg, hvg⟩ := (mem_groups wGroups_wf).2 hv
    have hl : wGroups.groupToElements = [(0, [0, 10]), (1, [20])] := by decide +kernel
    rw [hl] at hg
    simp at hg
    rcases hg with rfl | rfl <;> simp at hvg <;> omega
  obtain ⟨result, G', h1, h2, -, h4⟩ := setupInner_given (P := fProg) (removed := [10])
    ⟨by decide, by decide, by decide⟩ fAddressed ⟨by decide, by decide⟩ (fun _ => []) 3 wGroups_wf
    (by decide)
  obtain ⟨h5, h6⟩ := h4 ⟨0, by decide +kernel, by decide⟩
  obtain ⟨-, h7⟩ := h6 (by
    rintro ⟨a, ha, b, hb, hab, -, he, -⟩
    revert he
    have hb2 : ∀ a b : Fin 3, a ∈ fProg.blocks → b ∈ fProg.blocks → a ≠ b →
        a = 0 ∧ b = 2 ∨ a = 2 ∧ b = 0 := by decide
    rcases hb2 a b ha hb hab with ⟨rfl, rfl⟩ | ⟨rfl, rfl⟩ <;> decide +kernel)
  obtain ⟨S, groups, g1, g2, -, -, g5⟩ := h7 (by
    intro v hv hn
    rcases hid v hv with rfl | rfl | rfl
    · exact ⟨0, rfl⟩
    · simp at hn
    · exact ⟨2, rfl⟩)
  refine ⟨G', S, groups, by rw [h1, g1], g2, ?_, by decide +kernel, by rw [h2]; rfl⟩
  intro b
  rw [g5]
  constructor
  · intro h
    have hb2 : ∀ b : Fin 3, b ∈ fProg.blocks → b = 0 ∨ b = 2 := by decide
    exact hb2 b h.1
  · rintro (rfl | rfl)
    · exact ⟨by decide, by decide +kernel⟩
    · exact ⟨by decide, by decide +kernel⟩

/-- Non-vacuity of `setupInner_automatic`. -/
example : ∃ S groups, setupInner Graph.exSort 3 true false wProg wKnown (fun b => 10 * b) [] none =
      (.on S, none) ∧ S.Serves wProg groups ∧ Independent wProg groups ∧
      groups.flatten.Perm wProg.blocks :=
  setupInner_automatic wProg_wf (by decide) (fun g _ => Graph.exSort_sorted g) (by decide) wAddressed
    [] (by decide)

/-- Non-vacuity of `inner_descends`. -/
example : ∃ env : TrustRegion.Env (ℕ → ℚ) ℚ ℚ, TrustRegion.InnerDescends env ∧ env.inner ≠ none := by
  let env : TrustRegion.Env (ℕ → ℚ) ℚ ℚ :=
    { plus := fun x _ => some x
      plusFail := fun _ _ x => x
      zero := 0
      cost := total wProg wCosts
      jac := total wProg wCosts
      gradNorms := fun _ => some (1, 1)
      modelChange := fun _ _ => 1
      unscale := id
      lineSearch := fun _ _ d => d
      inner := some (sweep (best wProg wSolver wMem.cell) [[0, 1], [2]])
      norm := fun _ => 0
      dist := fun _ _ => 0
      callback := fun _ => .continue
      time := fun _ => 0 }
  exact ⟨env, inner_descends wIndependent wCosts_own (wSolver_minimizes _) env (fun _ => rfl) rfl,
    by simp [env]⟩

end Ceres.Inner
