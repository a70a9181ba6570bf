import Verif.Driver.Memory

/-!
# `Solve`: callbacks (C53), write-back and costs (C54)
-/
namespace Ceres.Driver

open Ceres.TrustRegion (CB Term)
open Ceres.Program (Prog Reduced removeFixedBlocks totalCost Used removeFixedBlocks_preserves)

variable {V I K A : Type}

/-- Assumptions on what `Solve` calls: the blocks of the problem are distinct, the preprocessor
only reorders the blocks of the reduced program, and the minimizer keeps one value per block. -/
structure EnvOk (env : Env V I K A) (p : Problem V K) : Prop where
  nodup : p.prog.pblocks.Nodup
  perm : ∀ l, (env.order l).Perm l
  sized : ∀ (k : K) (blocks : List Nat) (x0 : List V), x0.length = blocks.length →
    (env.minimizer k blocks x0).Sized blocks.length

section

variable [LinearOrder K] [AddCommMonoid K] [Neg K] [One K]

/-- The ways through `Solve`. -/
theorem solve_cases (o : Options V I A) (env : Env V I K A) (p : Problem V K) (w : World V A)
    (henv : EnvOk env p) :
    ((solve o env p w).1.mem = w.mem ∧ (solve o env p w).2.term = some .failure ∧
      (solve o env p w).2.calls = [] ∧
      ((solve o env p w).2.iters = [] ∧ (solve o env p w).2.reported = []) ∧
      (solve o env p w).2.blocks = []) ∨
    (∃ red, removeFixedBlocks p.isConst w.mem p.prog = .ok red ∧ red.prog.pblocks = [] ∧
      (solve o env p w).1.mem = w.mem ∧ (solve o env p w).2.term = some .convergence ∧
      (solve o env p w).2.calls = [] ∧
      ((solve o env p w).2.iters = [] ∧ (solve o env p w).2.reported = []) ∧
      (solve o env p w).2.blocks = [] ∧ (solve o env p w).2.params = [] ∧
      (solve o env p w).2.initialCost = red.fixedCost ∧
      (solve o env p w).2.finalCost = red.fixedCost) ∨
    ∃ red, removeFixedBlocks p.isConst w.mem p.prog = .ok red ∧
      env.order red.prog.pblocks ≠ [] ∧
      solve o env p w = minimize o env red.fixedCost (-1) (env.order red.prog.pblocks)
        { w with
          aux := env.prepare w.aux
          gradErr := false } := by
  unfold solve
  split
  · exact Or.inl ⟨rfl, rfl, rfl, ⟨rfl, rfl⟩, rfl⟩
  split
  · exact Or.inl ⟨rfl, rfl, rfl, ⟨rfl, rfl⟩, rfl⟩
  split
  · exact Or.inl ⟨rfl, rfl, rfl, ⟨rfl, rfl⟩, rfl⟩
  simp only
  split
  · exact Or.inl ⟨rfl, rfl, rfl, ⟨rfl, rfl⟩, rfl⟩
  · next red hred =>
    split
    · next h0 =>
      refine Or.inr (Or.inl ⟨red, hred, List.length_eq_zero_iff.1 h0, ?_⟩)
      unfold minimize
      rw [if_pos List.length_nil]
      exact ⟨rfl, rfl, rfl, ⟨rfl, rfl⟩, rfl, rfl, rfl, rfl⟩
    · next h0 =>
      split
      · exact Or.inl ⟨rfl, rfl, rfl, ⟨rfl, rfl⟩, rfl⟩
      · refine Or.inr (Or.inr ⟨red, hred, ?_, rfl⟩)
        intro h
        have := (henv.perm red.prog.pblocks).length_eq
        rw [h] at this
        exact h0 this.symm

/-- The run of the minimizer inside `Solve`. -/
def solveRun (o : Options V I A) (env : Env V I K A) (red : Reduced V K) (w : World V A) :
    Result V I K A :=
  exec (minimizerCallbacks o (env.order red.prog.pblocks))
    (env.minimizer red.fixedCost (env.order red.prog.pblocks)
      ((env.order red.prog.pblocks).map w.mem)) (-1)
    { w with
      aux := env.prepare w.aux
      gradErr := false }

omit [AddCommMonoid K] in
theorem minimize_eq (o : Options V I A) (env : Env V I K A) (red : Reduced V K) (w : World V A)
    (hne : env.order red.prog.pblocks ≠ []) :
    let r := solveRun o env red w
    let blocks := env.order red.prog.pblocks
    minimize o env red.fixedCost (-1) blocks
        { w with
          aux := env.prepare w.aux
          gradErr := false } =
      if r.term = none then
        (r.world, ⟨none, r.initialCost, -1, red.fixedCost, r.iters, r.calls, r.reported, blocks,
          r.params⟩)
      else
        ({ r.world with
            mem := writeBack blocks (if usable r.term then r.params else blocks.map w.mem)
              r.world.mem },
          ⟨if o.checkGradients && r.world.gradErr then some .failure else r.term, r.initialCost,
            summaryFinalCost env.cost r.initialCost r.iters, red.fixedCost, r.iters, r.calls,
            r.reported, blocks, r.params⟩) := by
  simp only
  unfold minimize
  rw [if_neg (fun h => hne (List.length_eq_zero_iff.1 h))]
  rfl

/-- The blocks the minimizer works on are the non-constant blocks some residual uses. -/
theorem order_mem {env : Env V I K A} {p : Problem V K} {w : World V A} (henv : EnvOk env p)
    {red : Reduced V K} (hred : removeFixedBlocks p.isConst w.mem p.prog = .ok red) :
    (env.order red.prog.pblocks).Nodup ∧
    ∀ b, b ∈ env.order red.prog.pblocks ↔
      b ∈ p.prog.pblocks ∧ Used p.isConst p.prog.rblocks b := by
  obtain ⟨-, ⟨sel, hsel, h1, -⟩, -⟩ := removeFixedBlocks_preserves _ _ _ _ hred
  constructor
  · rw [(henv.perm _).nodup_iff, h1]
    exact henv.nodup.filter _
  · intro b
    rw [(henv.perm _).mem_iff, h1, List.mem_filter, hsel]

/-- **C53.**  In every call of `Solve`:
* callbacks are called in every reported iteration (see `trRun_reported` and `lsRun_reported` for
  which ones these are) in the order of the `roster`: state updating,
  logging, the user's in the order given, gradient checking; no call is missing unless the run was
  stopped, and then the calls are a prefix;
* the answer to a call of the user's `j`-th callback is what that callback returns for this
  iteration in the state of the world at the time of the call;
* once a callback answers "abort" or "terminate" there is no further call, the iteration it was
  called for is the last one, and the verdict is USER_FAILURE or USER_SUCCESS respectively (unless
  gradient checking is on and found an error: FAILURE); USER_* verdicts have no other cause;
* if the user's callbacks do not write parameter memory, then whenever one is called the
  memory of the non-constant blocks in use holds the parameters of the minimizer
  (with `update_state_every_iteration`) or the original values (without it), and all other
  memory is as it was before the call of `Solve`. -/
theorem solve_callbacks (o : Options V I A) (env : Env V I K A) (p : Problem V K) (w : World V A)
    (henv : EnvOk env p) :
    let s := (solve o env p w).2
    s.reported.Sublist s.iters ∧
    (s.calls.map (fun c => (c.iteration, c.kind)) <+:
      s.reported.flatMap (fun it => (roster o).map (fun k => (it, k)))) ∧
    ((∀ c ∈ s.calls, c.answer = .continue) → s.calls.map (fun c => (c.iteration, c.kind)) =
      s.reported.flatMap (fun it => (roster o).map (fun k => (it, k)))) ∧
    (∀ c ∈ s.calls, ∀ j, c.kind = .user j → ∃ f, o.callbacks[j]? = some f ∧
      c.answer = (f c.iteration c.seen.mem c.seen.aux).2.2) ∧
    (∀ pre c post, s.calls = pre ++ c :: post → c.answer ≠ .continue →
      post = [] ∧ s.iters.getLast? = some c.iteration ∧
      (s.term = some (if c.answer = .abort then .userFailure else .userSuccess) ∨
        (o.checkGradients = true ∧ (solve o env p w).1.gradErr = true ∧
          s.term = some .failure))) ∧
    ((s.term = some .userSuccess → ∃ c ∈ s.calls, c.answer = .terminateSuccessfully) ∧
      (s.term = some .userFailure → ∃ c ∈ s.calls, c.answer = .abort)) ∧
    (ReadOnly o → ∀ c ∈ s.calls, ∀ j, c.kind = .user j →
      if o.updateState then
        c.params.length = s.blocks.length ∧ Holds s.blocks c.params w.mem c.seen.mem
      else c.seen.mem = w.mem) := by
  simp only
  rcases solve_cases o env p w henv with ⟨-, h2, h3, h4, -⟩ | ⟨red, -, -, -, h2, h3, h4, -⟩ |
      ⟨red, hred, hne, heq⟩
  · rw [h2, h3, h4.1, h4.2]
    exact ⟨by simp, by simp, by simp, by simp, by simp, by simp, by simp⟩
  · rw [h2, h3, h4.1, h4.2]
    exact ⟨by simp, by simp, by simp, by simp, by simp, by simp, by simp⟩
  · obtain ⟨hnd, -⟩ := order_mem henv hred
    have hok : CallsOk (minimizerCallbacks o (env.order red.prog.pblocks)) (solveRun o env red w) :=
      exec_callsOk _ _ _ _
    have hmem : ReadOnly o → _ := fun hro =>
      (exec_memory o hro (env.order red.prog.pblocks) hnd w.mem
      (env.minimizer red.fixedCost (env.order red.prog.pblocks)
        ((env.order red.prog.pblocks).map w.mem)) (-1)
      { w with
        aux := env.prepare w.aux
        gradErr := false } ⟨fun _ _ => rfl, fun _ => rfl⟩).2
    have hsz := (exec_sized (minimizerCallbacks o (env.order red.prog.pblocks))
      (env.order red.prog.pblocks).length _
      (henv.sized red.fixedCost (env.order red.prog.pblocks)
        ((env.order red.prog.pblocks).map w.mem) (by simp)) (-1)
      { w with
        aux := env.prepare w.aux
        gradErr := false }).2
    have hkinds : ∀ its : List I, its.flatMap (fun it =>
        (minimizerCallbacks o (env.order red.prog.pblocks)).map (fun cb => (it, cb.kind))) =
        its.flatMap (fun it => (roster o).map (fun k => (it, k))) := by
      intro its
      congr 1
      funext it
      rw [← minimizerCallbacks_kinds o (env.order red.prog.pblocks), List.map_map]
      rfl
    rw [heq, minimize_eq o env red w hne]
    change ReadOnly o → ∀ c ∈ (solveRun o env red w).calls, _ at hmem
    change ∀ c ∈ (solveRun o env red w).calls, _ at hsz
    have huser : ∀ c ∈ (solveRun o env red w).calls, ∀ j, c.kind = .user j →
        ∃ f, o.callbacks[j]? = some f ∧
        c.answer = (f c.iteration c.seen.mem c.seen.aux).2.2 := by
      intro c hc j hj
      obtain ⟨cb, hcb, hk, ha⟩ := hok.answers c hc
      rw [hj] at hk
      rcases mem_minimizerCallbacks o _ cb hcb with ⟨rfl, hu⟩ | rfl | h | rfl
      · simp [stateUpdatingCallback] at hk
      · simp [loggingCallback] at hk
      · obtain ⟨j', f, hf, hk', hr⟩ := mem_userCallbacks _ _ h
        rw [hk'] at hk
        simp only [Kind.user.injEq] at hk
        subst hk
        exact ⟨f, hf, by rw [ha, hr]⟩
      · simp [gradientCheckingCallback] at hk
    have hseen : ReadOnly o → ∀ c ∈ (solveRun o env red w).calls, ∀ j, c.kind = .user j →
      if o.updateState then
        c.params.length = (env.order red.prog.pblocks).length ∧
          Holds (env.order red.prog.pblocks) c.params w.mem c.seen.mem
      else c.seen.mem = w.mem := by
      intro hro c hc j hj
      have := hmem hro c hc (by rw [hj]; simp)
      by_cases hu : o.updateState = true
      · rw [if_pos hu] at this ⊢
        exact ⟨hsz c hc, this⟩
      · rw [if_neg hu] at this ⊢
        exact this
    split
    · next hnone =>
      refine ⟨hok.sub, by rw [← hkinds]; exact hok.order, fun h => by rw [← hkinds]; exact hok.through h,
        huser, ?_, by simp, hseen⟩
      intro pre c post h1 h2
      exfalso
      have := (hok.stop pre c post h1 h2).2.2.2
      rw [hnone] at this
      cases this
    · refine ⟨hok.sub, by rw [← hkinds]; exact hok.order, fun h => by rw [← hkinds]; exact hok.through h,
        huser, ?_, ?_, hseen⟩
      · intro pre c post h1 h2
        obtain ⟨g1, g2, g3, g4⟩ := hok.stop pre c post h1 h2
        refine ⟨g1, g2, ?_⟩
        simp only
        by_cases hg : (o.checkGradients && (solveRun o env red w).world.gradErr) = true
        · rw [if_pos hg]
          rw [Bool.and_eq_true] at hg
          exact Or.inr ⟨hg.1, hg.2, rfl⟩
        · rw [if_neg hg]
          exact Or.inl g4
      · simp only
        by_cases hg : (o.checkGradients && (solveRun o env red w).world.gradErr) = true
        · rw [if_pos hg]; simp
        · rw [if_neg hg]; exact hok.user

/-- **C54 (memory).**  If the user's callbacks do not write parameter memory then after `Solve`
* constant blocks, blocks no residual uses and all other memory are unchanged;
* if the summary says the solution is usable, the memory of the other blocks holds the parameters
  the minimizer returned, one value per block;
* if it says that it is not, the memory is what it was, unless gradient checking found an error
  (see `gradient_error_leaves_changed_memory`). -/
theorem solve_memory (o : Options V I A) (env : Env V I K A) (p : Problem V K) (w : World V A)
    (henv : EnvOk env p) (hro : ReadOnly o) :
    let s := (solve o env p w).2
    let mem := (solve o env p w).1.mem
    (∀ b, p.isConst b = true ∨ (∀ r ∈ p.prog.rblocks, b ∉ r.params) ∨ b ∉ p.prog.pblocks →
      mem b = w.mem b) ∧
    (usable s.term = true → s.params.length = s.blocks.length ∧ Holds s.blocks s.params w.mem mem ∧
      ∀ b, b ∈ s.blocks ↔ b ∈ p.prog.pblocks ∧ p.isConst b = false ∧
        ∃ r ∈ p.prog.rblocks, b ∈ r.params) ∧
    (s.term ≠ none → usable s.term = false →
      ¬ (o.checkGradients = true ∧ (solve o env p w).1.gradErr = true) → mem = w.mem) := by
  simp only
  rcases solve_cases o env p w henv with ⟨h1, h2, h3, h4, h5⟩ |
      ⟨red, hred, hp, h1, h2, h3, h4, h5, h6, -⟩ | ⟨red, hred, hne, heq⟩
  · rw [h1, h2]
    exact ⟨by simp, by simp [usable, Term.usable], by simp⟩
  · rw [h1, h2, h5, h6]
    refine ⟨by simp, fun _ => ⟨rfl, ⟨by simp, by simp⟩, ?_⟩, by simp⟩
    have := (order_mem henv hred).2
    intro b
    have hb := this b
    rw [(henv.perm _).mem_iff, hp] at hb
    unfold Used at hb
    exact hb
  · obtain ⟨hnd, hmo⟩ := order_mem henv hred
    have hcl : Clean o (env.order red.prog.pblocks) w.mem (solveRun o env red w).world :=
      (exec_memory o hro (env.order red.prog.pblocks) hnd w.mem
      (env.minimizer red.fixedCost (env.order red.prog.pblocks)
        ((env.order red.prog.pblocks).map w.mem)) (-1)
      { w with
        aux := env.prepare w.aux
        gradErr := false } ⟨fun _ _ => rfl, fun _ => rfl⟩).1
    have hsz : (solveRun o env red w).params.length = (env.order red.prog.pblocks).length :=
      (exec_sized (minimizerCallbacks o (env.order red.prog.pblocks))
      (env.order red.prog.pblocks).length _
      (henv.sized red.fixedCost (env.order red.prog.pblocks)
        ((env.order red.prog.pblocks).map w.mem) (by simp)) (-1)
      { w with
        aux := env.prepare w.aux
        gradErr := false }).1
    have hout : ∀ b, p.isConst b = true ∨ (∀ r ∈ p.prog.rblocks, b ∉ r.params) ∨
        b ∉ p.prog.pblocks → b ∉ env.order red.prog.pblocks := by
      intro b hb hmem
      obtain ⟨h1, h2, r, hr, hbr⟩ := (hmo b).1 hmem
      rcases hb with hb | hb | hb
      · rw [hb] at h2; cases h2
      · exact hb r hr hbr
      · exact hb h1
    rw [heq, minimize_eq o env red w hne]
    split
    · exact ⟨fun b hb => hcl.1 b (hout b hb), by simp [usable], by simp⟩
    · next hsome =>
      refine ⟨?_, ?_, ?_⟩
      · intro b hb
        simp only
        rw [writeBack_outside _ _ _ _ (hout b hb)]
        exact hcl.1 b (hout b hb)
      · intro hu
        simp only at hu ⊢
        by_cases hg : (o.checkGradients && (solveRun o env red w).world.gradErr) = true
        · rw [if_pos hg] at hu; simp [usable, Term.usable] at hu
        · rw [if_neg hg] at hu
          rw [if_pos hu]
          refine ⟨hsz, writeBack_holds _ _ _ _ hnd hcl.1, ?_⟩
          intro b
          have := hmo b
          unfold Used at this
          exact this
      · intro _ hu hg
        simp only at hu hg ⊢
        rw [← Bool.and_eq_true] at hg
        rw [if_neg hg] at hu
        rw [if_neg (by simp [hu])]
        exact writeBack_restore _ _ _ hnd hcl.1

/-- The total cost of the problem with `params` in `blocks` and the original values elsewhere. -/
def fullCost (p : Problem V K) (base : Nat → V) (blocks : List Nat) (params : List V) : Option K :=
  totalCost (writeBack blocks params base) p.prog.rblocks

/-- The cost of the reduced problem, the one the minimizer sees. -/
def reducedCost (red : Reduced V K) (base : Nat → V) (blocks : List Nat) (params : List V) :
    Option K :=
  totalCost (writeBack blocks params base) red.prog.rblocks

omit [LinearOrder K] [Neg K] [One K] in
/-- **C54 (costs).**  For every value of the parameters, the cost of the whole problem is the cost
the minimizer sees plus the fixed cost; if nothing is variable the costs reported are the cost of
the problem. -/
theorem fullCost_eq {env : Env V I K A} {p : Problem V K} {w : World V A} (henv : EnvOk env p)
    {red : Reduced V K} (hred : removeFixedBlocks p.isConst w.mem p.prog = .ok red)
    (params : List V) :
    fullCost p w.mem (env.order red.prog.pblocks) params =
      (reducedCost red w.mem (env.order red.prog.pblocks) params).map (· + red.fixedCost) := by
  obtain ⟨-, ⟨sel, hsel, h1, -⟩, h3⟩ := removeFixedBlocks_preserves _ _ _ _ hred
  refine h3 _ ?_
  intro b hb
  refine writeBack_outside _ _ _ _ ?_
  rw [(henv.perm _).mem_iff, h1, List.mem_filter, hsel]
  rintro ⟨-, hu, -⟩
  rw [hb] at hu
  cases hu

/-- **C54 (costs, nothing to optimise).**  If no residual uses a non-constant block, and the
preprocessing succeeds, `Solve` reports CONVERGENCE with the cost of the problem as initial and
final cost. -/
theorem solve_empty_costs (o : Options V I A) (env : Env V I K A) (p : Problem V K)
    (w : World V A) (henv : EnvOk env p) (ho : o.valid = true) (hc : env.cudaOk = true)
    (hv : p.valid w.mem = true) (hu : ∀ b ∈ p.prog.pblocks, ¬ Used p.isConst p.prog.rblocks b)
    (hwf : ∀ r ∈ p.prog.rblocks, ∀ b ∈ r.params, b ∈ p.prog.pblocks) (c : K)
    (hcost : totalCost w.mem p.prog.rblocks = some c) :
    (solve o env p w).2.term = some .convergence ∧ (solve o env p w).2.initialCost = c ∧
    (solve o env p w).2.finalCost = c ∧ (solve o env p w).1.mem = w.mem := by
  have hnb := (Program.removeFixedBlocks_error p.isConst w.mem p.prog hwf).1
  cases hred : removeFixedBlocks p.isConst w.mem p.prog with
  | error e =>
    exfalso
    cases e with
    | bug => exact hnb hred
    | evaluation =>
      obtain ⟨r, hr, -, hev⟩ := (Program.removeFixedBlocks_error p.isConst w.mem p.prog hwf).2.1 hred
      have : ∀ (l : List (Program.RB V K)) (c : K), totalCost w.mem l = some c → ∀ r ∈ l,
          r.eval w.mem ≠ none := by
        intro l
        induction l with
        | nil => simp
        | cons a l ih =>
          intro c hc r hr
          unfold totalCost at hc
          rcases List.mem_cons.1 hr with rfl | hr
          · intro h; rw [h] at hc; simp at hc
          · cases ha : a.eval w.mem with
            | none => rw [ha] at hc; simp at hc
            | some x =>
              rw [ha] at hc
              cases hl : totalCost w.mem l with
              | none => rw [hl] at hc; simp at hc
              | some y => exact ih y hl r hr
      exact this _ _ hcost r hr hev
  | ok red =>
    obtain ⟨⟨selr, hselr, hr1⟩, ⟨sel, hsel, h1, -⟩, h3⟩ := removeFixedBlocks_preserves _ _ _ _ hred
    have hp : red.prog.pblocks = [] := by
      rw [h1, List.filter_eq_nil_iff]
      intro b hb h
      exact hu b hb ((hsel b).1 h)
    have hr : red.prog.rblocks = [] := by
      rw [hr1, List.filter_eq_nil_iff]
      intro r hr h
      obtain ⟨b, hb, hcb⟩ := (hselr r).1 h
      exact hu b (hwf r hr b hb) ⟨hcb, r, hr, hb⟩
    have hfc := h3 w.mem (fun _ _ => rfl)
    rw [hcost, hr] at hfc
    simp only [totalCost, Option.map_some, Option.some.injEq, zero_add] at hfc
    unfold solve
    rw [if_neg (by simp [ho]), if_neg (by simp [hc]), if_neg (by simp [hv])]
    simp only [hred, hp, List.length_nil, if_true]
    unfold minimize
    rw [if_pos List.length_nil]
    exact ⟨rfl, hfc.symm, hfc.symm, rfl⟩

end

end Ceres.Driver
