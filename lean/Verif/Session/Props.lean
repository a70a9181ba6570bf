import Verif.Session.Solve
import Verif.Problem.Props
/-!
# C76: solving and evaluating leave no trace in a problem
-/
namespace Ceres.Session

open Ceres.Problem (Err State PBlock upd mapFind getR)

variable {V : Type} {env : Env V}

/-- Concrete and abstract session belong together: same container, same memory, and every state
pointer points to the user's memory. -/
structure Match (env : Env V) (t : Sess V) (a : ASess V) : Prop where
  prob : t.prob = a.prob
  mem : t.mem = a.mem
  home : ∀ p b, t.prob.pheap p = some b → t.ptr p = .user
  inv : ∃ sp, Problem.Inv env.base t.prob sp

theorem exit_match {t : Sess V} {w : Work V} {mem : Nat → V} (hw : Wf t.prob)
    (hb : Back t.prob mem w) (hi : ∃ sp, Problem.Inv env.base t.prob sp) :
    Match env (exit t w) ⟨t.prob, mem⟩ := by
  have hprob : (exit t w).prob = t.prob := by
    unfold exit
    have : (fun p => (t.prob.pheap p).map fun b =>
        ({ b with index := asIndex t.prob (w.index p), isConst := w.isConst p } : PBlock)) =
        t.prob.pheap := by
      funext p
      cases hp : t.prob.pheap p with
      | none => rfl
      | some b =>
        obtain ⟨h1, h2⟩ := hb.fields p b hp
        simp [h1, h2, asIndex]
    simp only [this]
  refine ⟨hprob, hb.mem, ?_, by rw [hprob]; exact hi⟩
  intro p b hp
  rw [hprob] at hp
  exact hb.home p ((hw.live p).2 ⟨b, hp⟩)

theorem enter_ready {t : Sess V} (hw : Wf t.prob)
    (hh : ∀ p b, t.prob.pheap p = some b → t.ptr p = .user) : Ready t.prob (enter t) := by
  refine ⟨?_, ?_⟩
  · intro p b hb; simp [enter, hb]
  · intro p hp
    obtain ⟨b, hb⟩ := (hw.live p).1 hp
    exact hh p b hb

theorem enter_index (t : Sess V) (p : Nat) (b : PBlock) (hb : t.prob.pheap p = some b) :
    (enter t).index p = (b.index : Int) := by simp [enter, hb]

theorem current_eq {t : Sess V} {a : ASess V} (h : Match env t a) (hw : Wf t.prob) (b : Nat) :
    current t b = .ok (a.mem b) := by
  unfold current
  cases hf : mapFind t.prob.pmap b with
  | none => simp only [h.mem]
  | some p =>
    obtain ⟨hp, ha⟩ := hw.find b p hf
    obtain ⟨blk, hblk⟩ := (hw.live p).1 hp
    have : t.ptr p = .user := h.home p blk hblk
    simp only [val, enter, this, ha, h.mem]

theorem resolve_eq {t : Sess V} {a : ASess V} (h : Match env t a) (hw : Wf t.prob)
    (o : Problem.Op) : resolve env t o = .ok (aResolve env a o) := by
  unfold resolve aResolve
  split <;> simp_all [current_eq h hw]

/-- One step of the user. -/
theorem step_match (hsafe : env.base.disableSafety = false) {t : Sess V} {a : ASess V}
    (h : Match env t a) (o : Op V) (hl : OpLegal env a o)
    (hs : ∀ a' log, aStep env a o = .ok (a', log) → Settled env a' o) :
    (∃ e, step env t o = .error e ∧ aStep env a o = .error e) ∨
    (∃ t' a' log, step env t o = .ok (t', log) ∧ aStep env a o = .ok (a', log) ∧
      Match env t' a') := by
  obtain ⟨sp, hinv⟩ := h.inv
  have hw := wf_of_inv hinv
  have hr := enter_ready hw h.home
  obtain ⟨tp, tptr, tmem⟩ := t
  obtain ⟨ap, amem⟩ := a
  obtain rfl : tp = ap := h.prob
  obtain rfl : tmem = amem := h.mem
  cases o with
  | container o =>
    have hsim := Problem.step_sim hinv hsafe (aResolve env ⟨tp, tmem⟩ o)
    simp only [step, aStep, resolve_eq h hw, ok_bind]
    cases hst : Problem.step env.base tp (aResolve env ⟨tp, tmem⟩ o) with
    | error e => left; exact ⟨e, rfl, rfl⟩
    | ok s' =>
      right
      rw [hst] at hsim
      cases hsp : Problem.specStep env.base sp (aResolve env ⟨tp, tmem⟩ o) with
      | error e => rw [hsp] at hsim; exact hsim.elim
      | ok sp' =>
        rw [hsp] at hsim
        refine ⟨_, _, [], rfl, rfl, ⟨rfl, rfl, ?_, sp', hsim⟩⟩
        intro p b _
        show (if (tp.pheap p).isSome then tptr p else .user) = .user
        cases hp : tp.pheap p with
        | none => rfl
        | some b' => simp only [Option.isSome_some, if_true]; exact h.home p b' hp
  | write b v =>
    right
    exact ⟨_, _, [], rfl, rfl, ⟨rfl, rfl, h.home, sp, hinv⟩⟩
  | evaluate rsel psel sel =>
    by_cases hex : ∃ log, aEvaluate env ⟨tp, tmem⟩ rsel psel sel = .ok log
    · obtain ⟨log, hlog⟩ := hex
      have hj := hs ⟨tp, tmem⟩ log (by simp [aStep, hlog])
      rcases evaluate_sim hw rsel psel sel hr hj with ⟨e, h1, _⟩ | ⟨log', w', h1, h2, h3⟩
      · have h1' : aEvaluate env ⟨tp, tmem⟩ rsel psel sel = .error e := h1
        rw [hlog] at h1'; cases h1'
      · right
        have h1' : aEvaluate env ⟨tp, tmem⟩ rsel psel sel = .ok log' := h1
        refine ⟨_, _, log', ?_, ?_, exit_match (t := ⟨tp, tptr, tmem⟩) hw h3 ⟨sp, hinv⟩⟩
        · simp only [step, h2, ok_bind]
        · simp only [aStep, h1', ok_bind]; rfl
    · left
      unfold aStep step
      unfold aEvaluate at hex ⊢
      unfold evaluate
      by_cases hlv : allLive tp rsel = true
      swap
      · exact ⟨.ub, by simp [hlv], by simp [hlv]⟩
      · simp only [hlv, not_true_eq_false, if_false] at hex ⊢
        cases hf : lookup tp psel with
        | error e => exact ⟨e, rfl, rfl⟩
        | ok found =>
          exfalso
          apply hex
          simp only [hf, ok_bind]
          split <;> split <;> exact ⟨_, rfl⟩
  | evaluateResidualBlock r want =>
    rcases evaluateResidualBlock_sim (env := env) hw r want hr
      (enter_index ⟨tp, tptr, tmem⟩) with ⟨e, h1, h2⟩ | ⟨log, w', h1, h2, h3⟩
    · left
      have h1' : aEvaluateResidualBlock env ⟨tp, tmem⟩ r want = .error e := h1
      exact ⟨e, by simp only [step, h2, err_bind], by simp only [aStep, h1', err_bind]⟩
    · right
      have h1' : aEvaluateResidualBlock env ⟨tp, tmem⟩ r want = .ok log := h1
      refine ⟨_, _, log, ?_, ?_, exit_match (t := ⟨tp, tptr, tmem⟩) hw h3 ⟨sp, hinv⟩⟩
      · simp only [step, h2, ok_bind]
      · simp only [aStep, h1', ok_bind]; rfl
  | solve c =>
    right
    obtain ⟨w', h1, h2⟩ := solve_sim (env := env) hw c hl hr (enter_index ⟨tp, tptr, tmem⟩) (by
      intro hne
      have := hs _ _ (rfl : aStep env ⟨tp, tmem⟩ (.solve c) = _)
      cases c <;> first | exact absurd rfl hne | exact this)
    refine ⟨_, _, _, ?_, rfl, exit_match (t := ⟨tp, tptr, tmem⟩) hw h2 ⟨sp, hinv⟩⟩
    simp only [step, h1, ok_bind]
    rfl

theorem run_match (hsafe : env.base.disableSafety = false) (ops : List (Op V)) :
    ∀ (t : Sess V) (a : ASess V), Match env t a → Fine env a ops →
    (∃ e, run env t ops = .error e ∧ aRun env a ops = .error e) ∨
    (∃ t' a' logs, run env t ops = .ok (t', logs) ∧ aRun env a ops = .ok (a', logs) ∧
      Match env t' a') := by
  induction ops with
  | nil => intro t a h _; right; exact ⟨t, a, [], rfl, rfl, h⟩
  | cons o os ih =>
    intro t a h hf
    rcases step_match hsafe h o hf.1 (fun a' log ha => (hf.2 a' log ha).1) with
      ⟨e, h1, h2⟩ | ⟨t1, a1, log, h1, h2, h3⟩
    · left; exact ⟨e, by simp only [run, h1, err_bind], by simp only [aRun, h2, err_bind]⟩
    · rcases ih t1 a1 h3 (hf.2 a1 log h2).2 with ⟨e, h4, h5⟩ | ⟨t2, a2, logs, h4, h5, h6⟩
      · left
        exact ⟨e, by simp only [run, h1, ok_bind, h4, err_bind],
          by simp only [aRun, h2, ok_bind, h5, err_bind]⟩
      · right
        exact ⟨t2, a2, log :: logs, by simp only [run, h1, ok_bind, h4],
          by simp only [aRun, h2, ok_bind, h5], h6⟩

theorem init_match (mem : Nat → V) : Match env (init mem) (aInit mem) :=
  ⟨rfl, rfl, by intro p b hb; rfl, ⟨_, Problem.inv_init env.base⟩⟩

/-- **C76.**  For every history of calls on a problem, writes to the user's memory, evaluations
and solves: the program stops at the same call and in the same way as the specification, in
which a problem is nothing but its blocks and the user's memory; or both finish, and then
every cost function was shown the same values in every call, the user's memory is the same,
and the container is the same. -/
theorem session_refines (hsafe : env.base.disableSafety = false) (mem : Nat → V)
    (ops : List (Op V)) (hfine : Fine env (aInit mem) ops) :
    match run env (init mem) ops, aRun env (aInit mem) ops with
    | .ok (t, logs), .ok (a, logs') => t.prob = a.prob ∧ t.mem = a.mem ∧ logs = logs'
    | .error e, .error e' => e = e'
    | _, _ => False := by
  rcases run_match hsafe ops _ _ (init_match mem) hfine with
    ⟨e, h1, h2⟩ | ⟨t, a, logs, h1, h2, h3⟩
  · rw [h1, h2]
  · rw [h1, h2]; exact ⟨h3.prob, h3.mem, rfl⟩

/-- **C76, no dangling pointers.**  After every history every block points to the user's memory
and its hidden position is its place in the problem. -/
theorem session_at_rest (hsafe : env.base.disableSafety = false) (mem : Nat → V)
    (ops : List (Op V)) (hfine : Fine env (aInit mem) ops) {t : Sess V} {logs : List (Log V)}
    (hrun : run env (init mem) ops = .ok (t, logs)) :
    (∀ p b, t.prob.pheap p = some b → t.ptr p = .user) ∧
    (∀ i p, t.prob.pvec[i]? = some p → ∃ b, t.prob.pheap p = some b ∧ b.index = i) := by
  rcases run_match hsafe ops _ _ (init_match mem) hfine with
    ⟨e, h1, _⟩ | ⟨t', a, logs', h1, _, h3⟩
  · rw [hrun] at h1; cases h1
  · rw [hrun] at h1
    cases h1
    obtain ⟨sp, hi⟩ := h3.inv
    exact ⟨h3.home, (wf_of_inv hi).index⟩

/-- The calls on the container in a history. -/
def containerCalls : List (Op V) → List Problem.Op
  | [] => []
  | .container o :: os => o :: containerCalls os
  | _ :: os => containerCalls os

/-- Two container calls that differ at most in the outcome of `PlusJacobian`. -/
inductive SameCall : Problem.Op → Problem.Op → Prop
  | refl (o) : SameCall o o
  | manifold (a m j j') : SameCall (.setManifold a m j) (.setManifold a m j')
  | add (a n m j j') : SameCall (.addParameterWithManifold a n m j)
      (.addParameterWithManifold a n m j')

theorem sameCall_aResolve (a : ASess V) (o : Problem.Op) : SameCall o (aResolve env a o) := by
  unfold aResolve
  split
  · exact .manifold _ _ _ _
  · exact .add _ _ _ _ _
  · exact .refl _

theorem aRun_structure (ops : List (Op V)) : ∀ (a a' : ASess V) (logs : List (Log V)),
    aRun env a ops = .ok (a', logs) →
    ∃ cs, List.Forall₂ SameCall (containerCalls ops) cs ∧
      Problem.run env.base a.prob cs = .ok a'.prob := by
  induction ops with
  | nil => intro a a' logs h; simp [aRun] at h; obtain ⟨rfl, _⟩ := h; exact ⟨[], .nil, rfl⟩
  | cons o os ih =>
    intro a a' logs h
    rw [aRun] at h
    cases hs : aStep env a o with
    | error e => simp [hs] at h
    | ok p =>
      obtain ⟨a1, log⟩ := p
      simp only [hs, ok_bind] at h
      cases hr : aRun env a1 os with
      | error e => simp [hr] at h
      | ok q =>
        obtain ⟨a2, logs2⟩ := q
        simp only [hr, ok_bind, Except.ok.injEq, Prod.mk.injEq] at h
        obtain ⟨rfl, _⟩ := h
        obtain ⟨cs, h1, h2⟩ := ih a1 a2 logs2 hr
        cases o with
        | container o =>
          simp only [aStep] at hs
          cases hst : Problem.step env.base a.prob (aResolve env a o) with
          | error e => simp [hst] at hs
          | ok s1 =>
            simp only [hst, ok_bind, Except.ok.injEq, Prod.mk.injEq] at hs
            obtain ⟨rfl, _⟩ := hs
            refine ⟨aResolve env a o :: cs, .cons (sameCall_aResolve a o) h1, ?_⟩
            rw [Problem.run, hst]
            exact h2
        | write b v =>
          simp only [aStep, Except.ok.injEq, Prod.mk.injEq] at hs
          obtain ⟨rfl, _⟩ := hs
          exact ⟨cs, h1, h2⟩
        | evaluate rsel psel sel =>
          simp only [aStep] at hs
          cases he : aEvaluate env a rsel psel sel with
          | error e => simp [he] at hs
          | ok l =>
            simp only [he, ok_bind, Except.ok.injEq, Prod.mk.injEq] at hs
            obtain ⟨rfl, _⟩ := hs
            exact ⟨cs, h1, h2⟩
        | evaluateResidualBlock r want =>
          simp only [aStep] at hs
          cases he : aEvaluateResidualBlock env a r want with
          | error e => simp [he] at hs
          | ok l =>
            simp only [he, ok_bind, Except.ok.injEq, Prod.mk.injEq] at hs
            obtain ⟨rfl, _⟩ := hs
            exact ⟨cs, h1, h2⟩
        | solve c =>
          simp only [aStep, Except.ok.injEq, Prod.mk.injEq] at hs
          obtain ⟨rfl, _⟩ := hs
          exact ⟨cs, h1, h2⟩

/-- **C76, structure.**  After every history the container is exactly what the calls on the
container alone would have made it: leaving out all solves and evaluations changes nothing (the
only influence they have is through the values at which a new manifold is tried).  So whatever
holds of problems built by container calls (C01–C04) holds of problems in use. -/
theorem session_structure (hsafe : env.base.disableSafety = false) (mem : Nat → V)
    (ops : List (Op V)) (hfine : Fine env (aInit mem) ops) {t : Sess V} {logs : List (Log V)}
    (hrun : run env (init mem) ops = .ok (t, logs)) :
    ∃ cs, List.Forall₂ SameCall (containerCalls ops) cs ∧
      Problem.run env.base Problem.init cs = .ok t.prob := by
  rcases run_match hsafe ops _ _ (init_match mem) hfine with
    ⟨e, h1, _⟩ | ⟨t', a, logs', h1, h2, h3⟩
  · rw [hrun] at h1; cases h1
  · rw [hrun] at h1
    cases h1
    rw [h3.prob]
    exact aRun_structure ops _ _ _ h2

/-- **C76, evaluation.**  After every history, evaluating everything shows each residual block
the values that the user's memory holds, and changes neither the memory nor the problem. -/
theorem evaluate_sees_memory (hsafe : env.base.disableSafety = false) (mem : Nat → V)
    (ops : List (Op V)) (hfine : Fine env (aInit mem) ops) {t : Sess V} {logs : List (Log V)}
    (hrun : run env (init mem) ops = .ok (t, logs))
    (hj : jacAll env t.prob (here t.prob t.mem) t.prob.pvec = true) :
    ∃ t', step env t (.evaluate [] [] (fun _ => true)) =
        .ok (t', t.prob.rvec.map (fun r => (r, (paramsOf t.prob r).map (here t.prob t.mem)))) ∧
      t'.prob = t.prob ∧ t'.mem = t.mem := by
  rcases run_match hsafe ops _ _ (init_match mem) hfine with
    ⟨e, h1, _⟩ | ⟨t', a, logs', h1, h2, h3⟩
  · rw [hrun] at h1; cases h1
  · rw [hrun] at h1
    cases h1
    obtain ⟨tp, tptr, tmem⟩ := t
    obtain ⟨ap, amem⟩ := a
    obtain rfl : tp = ap := h3.prob
    obtain rfl : tmem = amem := h3.mem
    have ha : aStep env ⟨tp, tmem⟩ (.evaluate [] [] (fun _ => true)) =
        .ok (⟨tp, tmem⟩, seen tp (here tp tmem) tp.rvec) := by
      have hj' : jacAll env tp (here tp tmem) tp.pvec = true := hj
      simp [aStep, aEvaluate, allLive, lookup, hj']
    rcases step_match hsafe h3 (.evaluate [] [] (fun _ => true)) trivial (by
      intro a' log h; rw [ha] at h; cases h; exact hj) with ⟨e, _, h5⟩ | ⟨t2, a2, log, h4, h5, h6⟩
    · rw [ha] at h5; cases h5
    · rw [ha] at h5
      cases h5
      exact ⟨t2, h4, h6.prob, h6.mem⟩

/-- **C76, memory.**  A solve changes the user's memory only at the active blocks (varying and
used by some residual block), unless a callback of the user does. -/
theorem solve_writes_active_only (a : ASess V) (c : Course V)
    (hcb : ∀ ps rs acts final, c = .minimized ps rs acts final → ∀ b v, Act.write b v ∉ acts)
    (b : Nat) (hb : ∀ p ∈ activeBlocks env a.prob, addrOf a.prob p ≠ b) :
    (aSolve env a c).1 b = a.mem b := by
  have hput : ∀ (x mem : Nat → V), put env a.prob x mem b = mem b := by
    intro x mem
    unfold put putAll
    have : (activeBlocks env a.prob).find? (fun p => decide (addrOf a.prob p = b)) = none := by
      rw [List.find?_eq_none]
      intro p hp; simpa using hb p hp
    rw [this]
  have hacts : ∀ (rs : List Nat) (acts : List (Act V)) (mem : Nat → V),
      (∀ b v, Act.write b v ∉ acts) → (aActAll env a.prob rs mem acts).1 b = mem b := by
    intro rs acts
    induction acts with
    | nil => intro mem _; rfl
    | cons x xs ih =>
      intro mem h
      have h' : ∀ b v, Act.write b v ∉ xs := fun b v hm => h b v (by simp [hm])
      have := ih (aAct env a.prob rs mem x).1 h'
      show (aActAll env a.prob rs (aAct env a.prob rs mem x).1 xs).1 b = mem b
      rw [this]
      cases x with
      | publish y => exact hput y mem
      | write b' v => exact absurd (by simp) (h b' v)
      | _ => rfl
  cases c with
  | minimized ps rs acts final =>
    simp only [aSolve]
    split
    · rfl
    · show put env a.prob final (aActAll env a.prob rs a.mem acts).1 b = a.mem b
      rw [hput, hacts rs acts a.mem (hcb ps rs acts final rfl)]
  | _ => rfl

end Ceres.Session
