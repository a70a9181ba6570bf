import Verif.Driver.LsRun
import Verif.Driver.TrSolve

/-!
# `Solve` with the line search minimizer; which iterations are reported (C53, C54)
-/
namespace Ceres.Driver

open Ceres.TrustRegion (CB Term Opts Iter Strategy St recordStep pushIter checkContinue body
  iterationZero enter)
open Ceres.LineSearch (LSProblem LSOptions LSState LSRecord LSResult LSStatus Direction Search
  CallbackResult SearchOk PlusZero CostConsistent OptionsOk EarlyExit RecordsOk Verdict)
open Ceres.Program (Prog Reduced removeFixedBlocks totalCost Used)

variable {V I K A S X D : Type}

/-! ### Which iterations are reported -/

/-- A minimizer that calls the callbacks for every iteration, except, if `last`, for a last
iteration after which it returns CONVERGENCE. -/
inductive Run.Reporting (last : Prop) : Run V I K A → Prop where
  | initial (c : K) (next : Run V I K A) : next.Reporting last → Run.Reporting last (.initial c next)
  | evaluate (upd : A → A) (err : A → Bool) (next : A → Run V I K A) :
      (∀ a, (next a).Reporting last) → Run.Reporting last (.evaluate upd err next)
  | report (p : List V) (it : I) (next : A → Run V I K A) : (∀ a, (next a).Reporting last) →
      Run.Reporting last (.report p it next)
  | record (it : I) (p : List V) (t : Own) : last → (t = .convergence ∨ t = .crash) →
      Run.Reporting last (.record it (.done p t))
  | done (p : List V) (t : Own) : Run.Reporting last (.done p t)

theorem exec_reported {last : Prop} (cbs : List (Callback V I A)) {run : Run V I K A}
    (hr : run.Reporting last) (k : K) (w : World V A) :
    (exec cbs run k w).iters = (exec cbs run k w).reported ∨
    (last ∧ (∃ it, (exec cbs run k w).iters = (exec cbs run k w).reported ++ [it]) ∧
      ((exec cbs run k w).term = some .convergence ∨ (exec cbs run k w).term = none)) := by
  induction hr generalizing k w with
  | initial c next _ ih => exact ih _ _
  | evaluate upd err next _ ih => exact ih _ _ _
  | done p t => exact Or.inl rfl
  | record it p t hl ht =>
    refine Or.inr ⟨hl, ⟨it, rfl⟩, ?_⟩
    rcases ht with rfl | rfl
    · exact Or.inl rfl
    · exact Or.inr rfl
  | report p it next _ ih =>
    unfold exec
    cases (runCallbacks p it cbs w).2.1 with
    | abort => exact Or.inl rfl
    | terminateSuccessfully => exact Or.inl rfl
    | «continue» =>
      simp only
      rcases ih (runCallbacks p it cbs w).1.aux k (runCallbacks p it cbs w).1 with
        h | ⟨h1, ⟨it', h2⟩, h3⟩
      · left; rw [h]
      · right
        exact ⟨h1, ⟨it', by rw [h2]; rfl⟩, h3⟩

section

variable [LinearOrder K] [AddCommMonoid K] [Neg K] [One K]

theorem solve_reported {last : Prop} (o : Options V I A) (env : Env V I K A) (p : Problem V K)
    (w : World V A) (henv : EnvOk env p)
    (hr : ∀ k blocks x0, (env.minimizer k blocks x0).Reporting last) :
    let s := (solve o env p w).2
    s.iters = s.reported ∨
    (last ∧ (∃ it, s.iters = s.reported ++ [it]) ∧ (s.term = some .convergence ∨ s.term = none ∨
      (o.checkGradients = true ∧ (solve o env p w).1.gradErr = true ∧ s.term = some .failure))) := by
  simp only
  rcases solve_cases o env p w henv with ⟨-, h2, h3, h4, -⟩ | ⟨red, -, -, -, h2, h3, h4, -⟩ |
      ⟨red, hred, hne, heq⟩
  · left; rw [h4.1, h4.2]
  · left; rw [h4.1, h4.2]
  · rw [heq, minimize_eq o env red w hne]
    have h := exec_reported (minimizerCallbacks o (env.order red.prog.pblocks))
      (hr red.fixedCost (env.order red.prog.pblocks) ((env.order red.prog.pblocks).map w.mem)) (-1)
      { w with
        aux := env.prepare w.aux
        gradErr := false }
    change (solveRun o env red w).iters = (solveRun o env red w).reported ∨ _ ∧
      (∃ it, (solveRun o env red w).iters = (solveRun o env red w).reported ++ [it]) ∧
      ((solveRun o env red w).term = _ ∨ (solveRun o env red w).term = _) at h
    split
    · rcases h with h | ⟨h1, h2, -⟩
      · exact Or.inl h
      · exact Or.inr ⟨h1, h2, Or.inr (Or.inl rfl)⟩
    · next hn =>
      rcases h with h | ⟨h1, h2, h3⟩
      · exact Or.inl h
      · refine Or.inr ⟨h1, h2, ?_⟩
        simp only
        by_cases hg : (o.checkGradients && (solveRun o env red w).world.gradErr) = true
        · rw [if_pos hg]
          rw [Bool.and_eq_true] at hg
          exact Or.inr (Or.inr ⟨hg.1, hg.2, rfl⟩)
        · rw [if_neg hg]
          rcases h3 with h3 | h3
          · exact Or.inl h3
          · exact absurd h3 hn

end

section TrustRegion

variable [Field K] [LinearOrder K]

theorem trMinimizer_reporting (enc : X → List V) (o : Opts K) (env : TrustRegion.Env X D K)
    (strategy : Strategy S X D K) (s0 : S) (x0 : X) :
    (trMinimizer enc o env strategy s0 x0 : Run V (Iter X K) K A).Reporting False := by
  have h : ∀ fuel s, (trRun enc o env strategy fuel s : Run V (Iter X K) K A).Reporting False := by
    intro fuel
    induction fuel with
    | zero => exact fun s => .done _ _
    | succ fuel ih =>
      intro s
      unfold trRun
      refine .report _ _ _ (fun a => ?_)
      split
      · cases body o env strategy (pushIter (recordStep strategy s)) with
        | abort => exact .done _ _
        | stop s' => exact .done _ _
        | cont s' => exact ih s'
      · exact .done _ _
  unfold trMinimizer
  simp only
  split
  · exact .initial _ _ (h _ _)
  · exact .done _ _

/-- **C53 (trust region).**  The trust region minimizer calls the callbacks for every iteration it
records. -/
theorem trRun_reported [IsStrictOrderedRing K] (o : Options V (Iter X K) A)
    (base : Env V (Iter X K) K A)
    (T : List Nat → TrustRegion.Env X D K) (strategy : List Nat → Strategy S X D K)
    (s0 : List Nat → S) (ot : Opts K) (enc : List Nat → X → List V) (dec : List Nat → List V → X)
    (p : Problem V K) (w : World V A) (hnd : p.prog.pblocks.Nodup)
    (hperm : ∀ l, (base.order l).Perm l)
    (henc : ∀ blocks x, (enc blocks x).length = blocks.length) :
    (solve o (trEnv base T strategy s0 ot enc dec) p w).2.iters =
      (solve o (trEnv base T strategy s0 ot enc dec) p w).2.reported := by
  have henv : EnvOk (trEnv base T strategy s0 ot enc dec) p := ⟨hnd, hperm, fun k blocks x0 hx => by
    simp only [trEnv]
    exact trMinimizer_sized _ _ _ _ _ (henc blocks) _ _⟩
  rcases solve_reported (last := False) o _ p w henv
    (fun k blocks x0 => trMinimizer_reporting _ _ _ _ _ _) with h | h
  · exact h
  · exact h.1.elim

end TrustRegion

/-! ### The line search minimizer -/

noncomputable section

variable [NormedAddCommGroup D] [InnerProductSpace ℝ D]

theorem lsMinimizer_reporting (enc : X → List V) (search : Search X D) (P : LSProblem X D)
    (o : LSOptions) (late : ℕ → Bool) (fixed : ℝ) (x : X) :
    (lsMinimizer enc search P o late fixed x : Run V (LSRecord X) ℝ A).Reporting True := by
  have h : ∀ fuel x previous current dir restarts last, (lsRun enc search P o late fixed fuel x
      previous current dir restarts last : Run V (LSRecord X) ℝ A).Reporting True := by
    intro fuel
    induction fuel with
    | zero =>
      intro x previous current dir restarts last
      unfold lsRun
      refine .report _ _ _ (fun a => ?_)
      cases hs : lsStep search P o (late last.iteration) x previous current dir restarts last with
      | stop s => exact .done _ _
      | final r s => exact .record _ _ _ trivial (Or.inl (lsStep_final hs))
      | next p c d n r => exact .record _ _ _ trivial (Or.inr rfl)
    | succ fuel ih =>
      intro x previous current dir restarts last
      unfold lsRun
      refine .report _ _ _ (fun a => ?_)
      cases hs : lsStep search P o (late last.iteration) x previous current dir restarts last with
      | stop s => exact .done _ _
      | final r s => exact .record _ _ _ trivial (Or.inl (lsStep_final hs))
      | next p c d n r => exact ih _ _ _ _ _ _
  unfold lsMinimizer
  split
  · exact .done _ _
  · split
    · exact .done _ _
    · refine .initial _ _ ?_
      split
      · exact .done _ _
      · exact h _ _ _ _ _ _ _
  · exact .done _ _

theorem lsMinimizer_sized (enc : X → List V) (search : Search X D) (P : LSProblem X D)
    (o : LSOptions) (late : ℕ → Bool) (fixed : ℝ) (n : ℕ) (henc : ∀ x, (enc x).length = n) (x : X) :
    (lsMinimizer enc search P o late fixed x : Run V (LSRecord X) ℝ A).Sized n := by
  have h : ∀ fuel x previous current dir restarts last, (lsRun enc search P o late fixed fuel x
      previous current dir restarts last : Run V (LSRecord X) ℝ A).Sized n := by
    intro fuel
    induction fuel with
    | zero =>
      intro x previous current dir restarts last
      unfold lsRun
      refine .report _ _ _ (henc _) (fun a => ?_)
      cases lsStep search P o (late last.iteration) x previous current dir restarts last with
      | stop s => exact .done _ _ (henc _)
      | final r s => exact .record _ _ (.done _ _ (henc _))
      | next p c d n r => exact .record _ _ (.done _ _ (henc _))
    | succ fuel ih =>
      intro x previous current dir restarts last
      unfold lsRun
      refine .report _ _ _ (henc _) (fun a => ?_)
      cases lsStep search P o (late last.iteration) x previous current dir restarts last with
      | stop s => exact .done _ _ (henc _)
      | final r s => exact .record _ _ (.done _ _ (henc _))
      | next p c d n r => exact ih _ _ _ _ _ _
  unfold lsMinimizer
  split
  · exact .done _ _ (henc _)
  · split
    · exact .done _ _ (henc _)
    · refine .initial _ _ ?_
      split
      · exact .done _ _ (henc _)
      · exact h _ _ _ _ _ _ _
  · exact .done _ _ (henc _)

/-- The array holds the current point at every report. -/
theorem lsMinimizer_current (enc : X → List V) (search : Search X D) (P : LSProblem X D)
    (o : LSOptions) (late : ℕ → Bool) (fixed : ℝ) (x : X) (k : ℝ) :
    (lsMinimizer enc search P o late fixed x : Run V (LSRecord X) ℝ A).Along
      (fun _ _ p it => p = enc it.x) (fun _ _ _ _ => True) k [] := by
  have h : ∀ fuel x previous current dir restarts last k (h : List (LSRecord X)), last.x = x →
      (lsRun enc search P o late fixed fuel x
      previous current dir restarts last : Run V (LSRecord X) ℝ A).Along
      (fun _ _ p it => p = enc it.x) (fun _ _ _ _ => True) k h := by
    intro fuel
    induction fuel with
    | zero =>
      intro x previous current dir restarts last k h hx
      unfold lsRun
      refine .report _ _ _ _ _ (by simp [addFixed, hx]) (fun a => ?_)
      cases lsStep search P o (late last.iteration) x previous current dir restarts last with
      | stop s => exact .done _ _ _ _ trivial
      | final r s => exact .record _ _ _ _ (.done _ _ _ _ trivial)
      | next p c d n r => exact .record _ _ _ _ (.done _ _ _ _ trivial)
    | succ fuel ih =>
      intro x previous current dir restarts last k h hx
      unfold lsRun
      refine .report _ _ _ _ _ (by simp [addFixed, hx]) (fun a => ?_)
      cases lsStep search P o (late last.iteration) x previous current dir restarts last with
      | stop s => exact .done _ _ _ _ trivial
      | final r s => exact .record _ _ _ _ (.done _ _ _ _ trivial)
      | next p c d n r => exact ih _ _ _ _ _ _ _ _ rfl
  unfold lsMinimizer
  split
  · exact .done _ _ _ _ trivial
  · split
    · exact .done _ _ _ _ trivial
    · refine .initial _ _ _ _ ?_
      split
      · exact .done _ _ _ _ trivial
      · exact h _ _ _ _ _ _ _ _ _ rfl
  · exact .done _ _ _ _ trivial

/-- The environment of `Solve` when the minimizer is the line search minimizer. -/
def lsEnv (base : Env V (LSRecord X) ℝ A) (search : Search X D) (P : List Nat → LSProblem X D)
    (ol : LSOptions) (late : ℕ → Bool) (enc : List Nat → X → List V)
    (dec : List Nat → List V → X) : Env V (LSRecord X) ℝ A :=
  { base with
    minimizer := fun fixed blocks x0 =>
      lsMinimizer (enc blocks) search (P blocks) ol late fixed (dec blocks x0)
    cost := LSRecord.cost }

/-- **C53 (line search).**  The line search minimizer calls the callbacks for every iteration it
records, except possibly for the last one, in which case it converged in it. -/
theorem lsRun_reported (o : Options V (LSRecord X) A) (base : Env V (LSRecord X) ℝ A)
    (search : Search X D) (P : List Nat → LSProblem X D) (ol : LSOptions) (late : ℕ → Bool)
    (enc : List Nat → X → List V) (dec : List Nat → List V → X) (p : Problem V ℝ) (w : World V A)
    (hnd : p.prog.pblocks.Nodup) (hperm : ∀ l, (base.order l).Perm l)
    (henc : ∀ blocks x, (enc blocks x).length = blocks.length) :
    let r := solve o (lsEnv base search P ol late enc dec) p w
    r.2.iters = r.2.reported ∨ ((∃ it, r.2.iters = r.2.reported ++ [it]) ∧
      (r.2.term = some .convergence ∨ r.2.term = none ∨
        (o.checkGradients = true ∧ r.1.gradErr = true ∧ r.2.term = some .failure))) := by
  have henv : EnvOk (lsEnv base search P ol late enc dec) p := ⟨hnd, hperm, fun k blocks x0 hx => by
    simp only [lsEnv]
    exact lsMinimizer_sized _ _ _ _ _ _ _ (henc blocks) _⟩
  rcases solve_reported (last := True) o _ p w henv
    (fun k blocks x0 => lsMinimizer_reporting _ _ _ _ _ _ _) with h | h
  · exact Or.inl h
  · exact Or.inr h.2

theorem summaryFinalCost_desc (cost : I → ℝ) (l : List I) :
    ∀ c : ℝ, (c :: l.map cost).Pairwise (· ≥ ·) →
      summaryFinalCost cost c l = match l.getLast? with
        | none => c
        | some it => cost it := by
  induction l with
  | nil => intro c _; rfl
  | cons a l ih =>
    intro c h
    rw [List.map_cons, List.pairwise_cons] at h
    have hac : cost a ≤ c := h.1 _ (List.mem_cons_self ..)
    have := ih (cost a) h.2
    unfold summaryFinalCost at this ⊢
    rw [List.foldl_cons, min_eq_left hac, this]
    cases hl : l.getLast? with
    | none =>
      rw [List.getLast?_eq_none_iff] at hl
      simp [hl]
    | some it =>
      rw [List.getLast?_cons]
      simp [hl]

/-- **C53/C54 (line search).**  `Solve` with the line search minimizer, whose evaluator computes the
cost of the reduced problem (C04, C05).  In every run:
* every iteration records the cost of the *whole* problem (fixed cost included) at its point;
* whenever a user callback is called with `update_state_every_iteration`, the memory holds the
  current point;
* if the solution is usable and anything was variable, the final cost in the summary is the cost
  of the problem in the memory afterwards, the initial cost is that in the memory before, and the
  final cost is no higher. -/
theorem solve_line_search (o : Options V (LSRecord X) A) (base : Env V (LSRecord X) ℝ A)
    {search : Search X D} {c₁ : ℝ} (hc₁ : 0 ≤ c₁) (hsearch : SearchOk c₁ search)
    {P : List Nat → LSProblem X D} (hP : ∀ blocks, PlusZero (P blocks))
    (hcc : ∀ blocks, CostConsistent (P blocks)) {ol : LSOptions} (hol : OptionsOk ol)
    (late : ℕ → Bool)
    (enc : List Nat → X → List V) (dec : List Nat → List V → X) (p : Problem V ℝ) (w : World V A)
    (hnd : p.prog.pblocks.Nodup) (hperm : ∀ l, (base.order l).Perm l)
    (henc : ∀ blocks x, (enc blocks x).length = blocks.length)
    (hdec : ∀ red, removeFixedBlocks p.isConst w.mem p.prog = .ok red →
      enc (base.order red.prog.pblocks)
        (dec (base.order red.prog.pblocks) ((base.order red.prog.pblocks).map w.mem)) =
          (base.order red.prog.pblocks).map w.mem)
    (heval : ∀ red, removeFixedBlocks p.isConst w.mem p.prog = .ok red → ∀ x c g,
      (P (base.order red.prog.pblocks)).eval x true = some (.fin c, g) →
      totalCost (writeBack (base.order red.prog.pblocks) (enc (base.order red.prog.pblocks) x)
        w.mem) red.prog.rblocks = some c)
    (hro : ReadOnly o) :
    let env := lsEnv base search P ol late enc dec
    let s := (solve o env p w).2
    (∀ it ∈ s.iters, totalCost (writeBack s.blocks (enc s.blocks it.x) w.mem) p.prog.rblocks =
        some it.cost) ∧
    (∀ c ∈ s.calls, ∀ j, c.kind = .user j →
      if o.updateState then Holds s.blocks (enc s.blocks c.iteration.x) w.mem c.seen.mem
      else c.seen.mem = w.mem) ∧
    (usable s.term = true → s.blocks ≠ [] →
      totalCost (solve o env p w).1.mem p.prog.rblocks = some s.finalCost ∧
      totalCost w.mem p.prog.rblocks = some s.initialCost ∧ s.finalCost ≤ s.initialCost) := by
  intro env s
  have henv : EnvOk env p := ⟨hnd, hperm, fun k blocks x0 hx => by
    simp only [env, lsEnv]
    exact lsMinimizer_sized _ _ _ _ _ _ _ (henc blocks) _⟩
  obtain ⟨-, -, -, -, -, -, hsee⟩ := solve_callbacks o env p w henv
  obtain ⟨hm1, hm2, hm3⟩ := solve_memory o env p w henv hro
  rcases solve_cases o env p w henv with ⟨h1, h2, h3, h4, h5⟩ |
      ⟨red, hred, hp, h1, h2, h3, h4, h5, h6, -⟩ | ⟨red, hred, hne, heq⟩
  · simp only [s]
    rw [h2, h3, h4.1]
    exact ⟨by simp, by simp, by simp [usable, Term.usable]⟩
  · simp only [s]
    rw [h2, h3, h4.1, h5]
    exact ⟨by simp, by simp, by simp⟩
  · generalize hB : env.order red.prog.pblocks = blocks at *
    have hnb : blocks.Nodup := by rw [← hB]; exact (order_mem henv hred).1
    have hrun : solveRun o env red w = exec (minimizerCallbacks o blocks)
        (lsMinimizer (enc blocks) search (P blocks) ol late red.fixedCost
          (dec blocks (blocks.map w.mem))) (-1)
        { w with
          aux := env.prepare w.aux
          gradErr := false } := by
      subst hB; rfl
    have hal := (exec_along (minimizerCallbacks o blocks)
      (lsMinimizer_current (A := A) (enc blocks) search (P blocks) ol late red.fixedCost
        (dec blocks (blocks.map w.mem)) (-1))
        { w with
          aux := env.prepare w.aux
          gradErr := false }).1
    obtain ⟨orc, -, ⟨hx, ht, hi⟩, hinit⟩ := exec_lsMinimizer (enc blocks) search (P blocks) ol late
      red.fixedCost (dec blocks (blocks.map w.mem)) (minimizerCallbacks o blocks) (-1)
        { w with
          aux := env.prepare w.aux
          gradErr := false }
    rw [← hrun] at hal hx ht hi hinit
    have hmin := minimize_eq o env red w (by rw [hB]; exact hne)
    simp only [hB] at hmin
    have hsi : s.iters = (solveRun o env red w).iters ∧ s.calls = (solveRun o env red w).calls ∧
        s.initialCost = (solveRun o env red w).initialCost ∧
        s.blocks = blocks ∧ s.params = (solveRun o env red w).params ∧
        (usable s.term = true → usable (solveRun o env red w).term = true ∧
          s.finalCost = summaryFinalCost LSRecord.cost s.initialCost s.iters) := by
      simp only [s]
      rw [heq, hmin]
      split
      · exact ⟨rfl, rfl, rfl, rfl, rfl, by simp [usable]⟩
      · refine ⟨rfl, rfl, rfl, rfl, rfl, ?_⟩
        simp only
        split
        · simp [usable, Term.usable]
        · exact fun h => ⟨h, rfl⟩
    obtain ⟨e1, e2, e3, e4, e5, e6⟩ := hsi
    rw [← e1] at hi
    rw [← e2] at hal
    rw [← e3] at hinit
    rw [← e5] at hx
    simp only [List.map_nil, List.nil_append] at hi
    have hfull : ∀ x c g, (P blocks).eval x true = some (.fin c, g) →
        totalCost (writeBack blocks (enc blocks x) w.mem) p.prog.rblocks =
          some (c + red.fixedCost) := by
      intro x c g he
      have h1 := fullCost_eq henv hred (enc blocks x)
      rw [hB] at h1
      have h2 : reducedCost red w.mem blocks (enc blocks x) = some c := by
        have := heval red hred x c g
        have hb' : base.order red.prog.pblocks = blocks := hB
        rw [hb'] at this
        exact this he
      rw [h2] at h1
      exact h1
    have hok := LineSearch.minimize_ok hc₁ hsearch (hP blocks) (hcc blocks) hol orc
      (dec blocks (blocks.map w.mem))
    have hmono := LineSearch.minimize_monotone hc₁ hsearch (hP blocks) (hcc blocks) hol orc
      (dec blocks (blocks.map w.mem))
    generalize LineSearch.minimize search (P blocks) ol orc (dec blocks (blocks.map w.mem)) = R at *
    have hcost : ∀ it ∈ s.iters,
        totalCost (writeBack s.blocks (enc s.blocks it.x) w.mem) p.prog.rblocks = some it.cost := by
      intro it hit
      rw [hi] at hit
      obtain ⟨r, hr, rfl⟩ := List.mem_map.1 hit
      rcases hok with h | h
      · rw [h.1] at hr; cases hr
      · obtain ⟨g, hg, -⟩ := h.1.cost r hr
        rw [e4]
        exact hfull _ _ _ hg
    refine ⟨hcost, ?_, ?_⟩
    · intro c hc j hj
      have hs := hsee hro c hc j hj
      obtain ⟨-, -, -, q⟩ := hal c hc
      by_cases hu : o.updateState = true
      · rw [if_pos hu] at hs ⊢
        rw [e4]
        have := hs.2
        rw [q] at this
        change Holds s.blocks _ _ _ at this
        rw [e4] at this
        exact this
      · rw [if_neg hu] at hs ⊢
        exact hs
    · intro hu hb
      obtain ⟨m1, m2, -⟩ := hm2 hu
      obtain ⟨u1, u2⟩ := e6 hu
      have hstart : enc blocks (dec blocks (blocks.map w.mem)) = blocks.map w.mem := by
        have := hdec red hred
        have hb' : base.order red.prog.pblocks = blocks := hB
        rw [hb'] at this
        exact this
      have hrest : writeBack blocks (blocks.map w.mem) w.mem = w.mem :=
        writeBack_restore _ _ _ hnb (fun _ _ => rfl)
      have hmemeq : (solve o env p w).1.mem = writeBack blocks (enc blocks R.x) w.mem := by
        rw [← hx, ← e4]
        exact m2.eq_writeBack (by rw [e4]; exact hnb) m1
      -- the cost at the start
      have hpre : ∃ c g, (P blocks).eval (dec blocks (blocks.map w.mem)) true = some (.fin c, g) ∧
          ((P blocks).plus (dec blocks (blocks.map w.mem)) (-g)).isSome = true ∧
          ((R.records = [] ∧ R.x = dec blocks (blocks.map w.mem)) ∨
            ∃ last, R.records.getLast? = some last ∧ R.x = last.x ∧
              ∃ r, R.records.head? = some r ∧ r.cost = c) := by
        rcases hok with h | ⟨hR, last, hl, hlx, hv⟩
        · obtain ⟨q1, q2, q3 | q3 | q3⟩ := h
          · rw [ht, q3.1] at u1; simp [lsTerm, ownOfLs, Own.term, usable, Term.usable] at u1
          · rw [ht, q3.1] at u1; simp [lsTerm, ownOfLs, Own.term, usable] at u1
          · obtain ⟨c, g, y, g1, g2, -⟩ := q3.2
            exact ⟨c, g, g1, by rw [g2]; rfl, Or.inl ⟨q1, q2⟩⟩
        · cases hh : R.records with
          | nil => rw [hh] at hl; simp at hl
          | cons r rs =>
            obtain ⟨-, f2⟩ := hR.first r (by rw [hh]; rfl)
            obtain ⟨g, g1, y, g2, -⟩ := hR.cost r (by rw [hh]; simp)
            rw [f2] at g1 g2
            refine ⟨r.cost, g, g1, by rw [g2]; rfl, Or.inr ⟨last, by rw [← hh]; exact hl, hlx, r, rfl,
              rfl⟩⟩
      obtain ⟨c, g, p1, p2, p3⟩ := hpre
      have hic : s.initialCost = c + red.fixedCost := hinit c g p1 p2
      have hinit' : totalCost w.mem p.prog.rblocks = some s.initialCost := by
        have := hfull _ _ _ p1
        rw [hstart, hrest] at this
        rw [this, hic]
      have hdesc : (s.initialCost :: s.iters.map LSRecord.cost).Pairwise (· ≥ ·) := by
        rw [List.pairwise_cons]
        have hmap : s.iters.map LSRecord.cost =
            (R.records.map LSRecord.cost).map (· + red.fixedCost) := by
          rw [hi]
          simp [List.map_map, Function.comp_def, addFixed]
        have hpw : (s.iters.map LSRecord.cost).Pairwise (· ≥ ·) := by
          rw [hmap]
          exact hmono.map _ (fun a b hab => by
            simp only [ge_iff_le] at hab ⊢; linarith)
        refine ⟨?_, hpw⟩
        rcases p3 with ⟨q1, -⟩ | ⟨last, -, -, r, q1, q2⟩
        · rw [hmap, q1]; simp
        · cases hh : R.records with
          | nil => rw [hh] at q1; simp at q1
          | cons r' rs =>
            rw [hh] at q1
            simp only [List.head?_cons, Option.some.injEq] at q1
            subst q1
            rw [hmap, hh] at hpw ⊢
            simp only [List.map_cons, List.pairwise_cons, List.mem_cons] at hpw ⊢
            rintro a (rfl | ha)
            · rw [hic, q2]
            · have := hpw.1 a ha
              rw [hic, ← q2]
              exact this
      have hfc := summaryFinalCost_desc LSRecord.cost s.iters s.initialCost hdesc
      rw [← u2] at hfc
      refine ⟨?_, hinit', ?_⟩
      · rw [hmemeq]
        rcases p3 with ⟨q1, q2⟩ | ⟨last, q1, q2, -⟩
        · rw [hi, q1] at hfc
          simp only [List.map_nil, List.getLast?_nil] at hfc
          rw [q2, hstart, hrest, hfc]
          exact hinit'
        · have hlast : s.iters.getLast? = some (addFixed red.fixedCost last) := by
            rw [hi, List.getLast?_map, q1]; rfl
          rw [hlast] at hfc
          simp only at hfc
          have := hcost _ (List.mem_of_getLast? hlast)
          rw [e4] at this
          rw [q2, hfc]
          exact this
      · rw [List.pairwise_cons] at hdesc
        cases hl : s.iters.getLast? with
        | none => rw [hl] at hfc; exact hfc.le
        | some it =>
          rw [hl] at hfc
          rw [hfc]
          exact hdesc.1 _ (List.mem_map_of_mem (List.mem_of_getLast? hl))

end

end Ceres.Driver
